import Verif.Model.Style
import Mathlib.Data.Rat.Defs
import Mathlib.Data.List.Nodup

/-!
# C125: options of plots take effect over style sheets

The settings in force while a plot is drawn are those of the last style that sets them, explicit options come
last, then the user's style sheets, then Euphonic's own.
-/

set_option autoImplicit false
set_option linter.unusedSectionVars false

namespace Euphonic.Style

variable {K : Type} [Zero K] [Mul K] [DecidableEq K]

/-! ## Specification -/

/-- A style sets `k` to `v`: the last entry for `k`. -/
def Sets (sheet : String → Settings K) (e : Elem K) (k : String) (v : Val K) : Prop :=
  ∃ l r, contents sheet e = l ++ (k, v) :: r ∧ ∀ w, (k, w) ∉ r

/-- A style says nothing about `k`. -/
def Silent (sheet : String → Settings K) (e : Elem K) (k : String) : Prop := ∀ w, (k, w) ∉ contents sheet e

/-- The value of `k` after the styles `es`: that of the last of them that sets it, or the one before. -/
def InForce (sheet : String → Settings K) (rc : String → Option (Val K)) (es : List (Elem K)) (k : String)
    (v : Option (Val K)) : Prop :=
  (∃ l e r w, es = l ++ e :: r ∧ Sets sheet e k w ∧ (∀ e' ∈ r, Silent sheet e' k) ∧ v = some w) ∨
    ((∀ e ∈ es, Silent sheet e k) ∧ v = rc k)

/-- The option says that `k` is to be `v` (sizes in inches). -/
def Asked (inches : String → Except Err K) (a : Args K) (k : String) (v : Val K) : Prop :=
  (k = "image.cmap" ∧ ∃ s, a.cmap = some s ∧ v = .str s) ∨
  (k = "font.size" ∧ ∃ x, a.fontsize = some x ∧ v = .num x) ∨
  (k = "font.sans-serif" ∧ ∃ s, a.font = some s ∧ v = .str s) ∨
  (k = "font.family" ∧ (∃ s, a.font = some s) ∧ v = .str "sans-serif") ∨
  (k = "lines.linewidth" ∧ ∃ x, a.linewidth = some x ∧ v = .num x) ∨
  (k = "figure.figsize" ∧ ∃ xs f, a.figsize = some xs ∧ inches a.figsizeUnit = .ok f ∧
    v = .nums (xs.map fun x => x * f))

/-- No option is an empty string, zero or an empty list. -/
structure NonZero (a : Args K) : Prop where
  cmap : a.cmap ≠ some ""
  fontsize : a.fontsize ≠ some 0
  font : a.font ≠ some ""
  linewidth : a.linewidth ≠ some 0
  figsize : a.figsize ≠ some []

/-! ## Proofs -/

theorem lastOf_sets {sheet : String → Settings K} {e : Elem K} {k : String} {v : Val K}
    (h : lastOf (contents sheet e) k = some v) : Sets sheet e k v := by
  unfold lastOf at h
  simp only [Option.map_eq_some_iff] at h
  obtain ⟨⟨k', v'⟩, hf, rfl⟩ := h
  obtain ⟨hk, l, r, hl, hr⟩ := List.find?_eq_some_iff_append.1 hf
  have hk' : k' = k := by simpa using hk
  subst hk'
  refine ⟨r.reverse, l.reverse, ?_, fun w hw => ?_⟩
  · have := congrArg List.reverse hl
    simpa using this
  · have := hr _ (List.mem_reverse.1 hw)
    simp at this

theorem lastOf_silent {sheet : String → Settings K} {e : Elem K} {k : String}
    (h : lastOf (contents sheet e) k = none) : Silent sheet e k := by
  intro w hw
  unfold lastOf at h
  simp only [Option.map_eq_none_iff, List.find?_eq_none, List.mem_reverse] at h
  exact absurd (h _ hw) (by simp)

theorem applyStyles_inForce (sheet : String → Settings K) (k : String) :
    ∀ (es : List (Elem K)) (rc : String → Option (Val K)),
      InForce sheet rc es k (applyStyles sheet rc es k)
  | [], rc => .inr ⟨by simp, rfl⟩
  | e :: es, rc => by
    rcases applyStyles_inForce sheet k es (fun k => (lastOf (contents sheet e) k).or (rc k)) with
      ⟨l, e', r, w, rfl, h1, h2, h3⟩ | ⟨h1, h2⟩
    · exact .inl ⟨e :: l, e', r, w, rfl, h1, h2, h3⟩
    · rcases ho : lastOf (contents sheet e) k with _ | w
      · refine .inr ⟨fun x hx => ?_, ?_⟩
        · rcases List.mem_cons.1 hx with rfl | hx
          · exact lastOf_silent ho
          · exact h1 _ hx
        · rw [applyStyles, h2]; simp [ho]
      · refine .inl ⟨[], e, es, w, rfl, lastOf_sets ho, h1, ?_⟩
        rw [applyStyles, h2]; simp [ho]

theorem sets_unique {sheet : String → Settings K} {e : Elem K} {k : String} {v w : Val K}
    (hv : Sets sheet e k v) (hw : Sets sheet e k w) : v = w := by
  obtain ⟨l, r, h1, h2⟩ := hv
  obtain ⟨l', r', h1', h2'⟩ := hw
  rw [h1] at h1'
  rcases List.append_eq_append_iff.1 h1' with ⟨m, rfl, hm⟩ | ⟨m, rfl, hm⟩
  · cases m with
    | nil => simp at hm; exact hm.1
    | cons x m =>
      simp only [List.cons_append, List.cons.injEq] at hm
      exact absurd (hm.2 ▸ by simp : (k, w) ∈ r) (h2 w)
  · cases m with
    | nil => simp at hm; exact hm.1.symm
    | cons x m =>
      simp only [List.cons_append, List.cons.injEq] at hm
      exact absurd (hm.2 ▸ by simp : (k, v) ∈ r') (h2' v)

theorem sets_not_silent {sheet : String → Settings K} {e : Elem K} {k : String} {v : Val K}
    (hv : Sets sheet e k v) (hs : Silent sheet e k) : False := by
  obtain ⟨l, r, h1, -⟩ := hv
  exact hs v (by rw [h1]; simp)

/-- The value in force is determined by the specification. -/
theorem inForce_unique {sheet : String → Settings K} {rc : String → Option (Val K)} {k : String}
    {v w : Option (Val K)} (es : List (Elem K)) (hv : InForce sheet rc es k v) (hw : InForce sheet rc es k w) :
    v = w := by
  rcases hv with ⟨l, e, r, x, rfl, h1, h2, rfl⟩ | ⟨h1, rfl⟩ <;>
    rcases hw with ⟨l', e', r', x', h0, h1', h2', rfl⟩ | ⟨h1', rfl⟩
  · rcases List.append_eq_append_iff.1 h0 with ⟨m, rfl, hm⟩ | ⟨m, rfl, hm⟩
    · cases m with
      | nil =>
        simp only [List.nil_append, List.cons.injEq] at hm
        rw [← hm.1] at h1'
        rw [sets_unique h1 h1']
      | cons y m =>
        simp only [List.cons_append, List.cons.injEq] at hm
        exact (sets_not_silent h1' (h2 _ (hm.2 ▸ by simp))).elim
    · cases m with
      | nil =>
        simp only [List.nil_append, List.cons.injEq] at hm
        rw [hm.1] at h1'
        rw [sets_unique h1 h1']
      | cons y m =>
        simp only [List.cons_append, List.cons.injEq] at hm
        exact (sets_not_silent h1 (h2' _ (hm.2 ▸ by simp))).elim
  · exact (sets_not_silent h1 (h1' _ (by simp))).elim
  · exact (sets_not_silent h1' (h1 _ (by rw [h0]; simp))).elim
  · rfl

theorem isEmpty_of_ne {s : String} (h : s ≠ "") : s.isEmpty = false := by
  rcases hs : s.isEmpty with _ | _
  · rfl
  · exact absurd (String.isEmpty_iff.1 hs) h

theorem lastOf_some_mem {d : Settings K} {k : String} {v : Val K} (h : lastOf d k = some v) : (k, v) ∈ d := by
  obtain ⟨l, r, h1, -⟩ := lastOf_sets (sheet := fun _ => []) (e := .dict d) h
  simp only [contents] at h1
  rw [h1]; simp

theorem lastOf_none_mem {d : Settings K} {k : String} (h : lastOf d k = none) (v : Val K) : (k, v) ∉ d :=
  lastOf_silent (sheet := fun _ => []) (e := .dict d) h v

theorem mem_collect {os : List (String × Option (Val K))} {k : String} {v : Val K} :
    (k, v) ∈ collect os ↔ (k, some v) ∈ os ∧ truthy (some v) = true := by
  simp only [collect, List.mem_filterMap]
  constructor
  · rintro ⟨⟨k', o⟩, hm, h⟩
    by_cases ht : truthy o = true
    · simp only [ht, if_true, Option.map_eq_some_iff] at h
      obtain ⟨w, rfl, h⟩ := h
      cases h
      exact ⟨hm, ht⟩
    · simp [ht] at h
  · rintro ⟨hm, ht⟩
    exact ⟨_, hm, by simp [ht]⟩

theorem mem_addFamily {d : Settings K} {k : String} {v : Val K} :
    (k, v) ∈ addFamily d ↔
      (k, v) ∈ d ∨ ((∃ w, ("font.sans-serif", w) ∈ d) ∧ k = "font.family" ∧ v = .str "sans-serif") := by
  unfold addFamily
  split_ifs with h
  · simp only [List.any_eq_true, beq_iff_eq] at h
    obtain ⟨⟨k', w⟩, hm, hk⟩ := h
    have hk' : k' = "font.sans-serif" := hk
    subst hk'
    simp only [List.mem_append, List.mem_singleton, Prod.mk.injEq]
    constructor
    · rintro (h | h)
      · exact .inl h
      · exact .inr ⟨⟨w, hm⟩, h⟩
    · rintro (h | h)
      · exact .inl h
      · exact .inr h.2
  · constructor
    · exact .inl
    · rintro (h' | ⟨⟨w, hw⟩, -⟩)
      · exact h'
      · exact absurd (List.any_eq_true.2 ⟨_, hw, by simp⟩) h

theorem convertSize_cons {inches : String → Except Err K} {u : String} {p : String × Val K} {d d' : Settings K}
    (h : convertSize inches u (p :: d) = .ok d') :
    ∃ q r, d' = q :: r ∧ convertSize inches u d = .ok r ∧ q.1 = p.1 ∧
      ((q = p ∧ ∀ xs, p ≠ ("figure.figsize", .nums xs)) ∨
        ∃ xs f, p = ("figure.figsize", .nums xs) ∧ inches u = .ok f ∧
          q = ("figure.figsize", .nums (xs.map fun x => x * f))) := by
  obtain ⟨k, v⟩ := p
  rcases v with s | x | xs
  · simp only [convertSize, bind, Except.bind, pure, Except.pure] at h
    rcases hc : convertSize inches u d with e | r <;> simp only [hc] at h <;> cases h
    exact ⟨_, _, rfl, rfl, rfl, .inl ⟨rfl, by simp⟩⟩
  · simp only [convertSize, bind, Except.bind, pure, Except.pure] at h
    rcases hc : convertSize inches u d with e | r <;> simp only [hc] at h <;> cases h
    exact ⟨_, _, rfl, rfl, rfl, .inl ⟨rfl, by simp⟩⟩
  · simp only [convertSize, bind, Except.bind, pure, Except.pure] at h
    by_cases hk : k = "figure.figsize"
    · simp only [hk, if_true] at h
      rcases hi : inches u with e | f <;> simp only [hi] at h
      · cases h
      rcases hc : convertSize inches u d with e | r <;> simp only [hc] at h <;> cases h
      exact ⟨_, _, rfl, rfl, hk.symm, .inr ⟨xs, f, by rw [hk], rfl, rfl⟩⟩
    · simp only [hk, if_false] at h
      rcases hc : convertSize inches u d with e | r <;> simp only [hc] at h <;> cases h
      exact ⟨_, _, rfl, rfl, rfl, .inl ⟨rfl, by simp [hk]⟩⟩

theorem mem_convertSize {inches : String → Except Err K} {u : String} {k : String} {v : Val K} :
    ∀ {d d' : Settings K}, convertSize inches u d = .ok d' →
      ((k, v) ∈ d' ↔ ((k, v) ∈ d ∧ ∀ xs, (k, v) ≠ ("figure.figsize", .nums xs)) ∨
        ∃ xs f, ("figure.figsize", .nums xs) ∈ d ∧ inches u = .ok f ∧
          (k, v) = ("figure.figsize", .nums (xs.map fun x => x * f)))
  | [], d', h => by
    cases h
    simp
  | p :: d, d', h => by
    obtain ⟨q, r, rfl, hr, -, hq⟩ := convertSize_cons h
    rw [List.mem_cons, mem_convertSize hr]
    rcases hq with ⟨rfl, hp⟩ | ⟨xs, f, rfl, hf, rfl⟩
    · constructor
      · rintro (h | ⟨h, hn⟩ | ⟨xs, f, hm, hf, he⟩)
        · exact .inl ⟨by simp [h], by rw [h]; exact hp⟩
        · exact .inl ⟨by simp [h], hn⟩
        · exact .inr ⟨xs, f, by simp [hm], hf, he⟩
      · rintro (⟨h, hn⟩ | ⟨xs, f, hm, hf, he⟩)
        · rcases List.mem_cons.1 h with h | h
          · exact .inl h
          · exact .inr (.inl ⟨h, hn⟩)
        · rcases List.mem_cons.1 hm with h | h
          · exact absurd h.symm (hp xs)
          · exact .inr (.inr ⟨xs, f, h, hf, he⟩)
    · constructor
      · rintro (h | ⟨h, hn⟩ | ⟨xs, f, hm, hf, he⟩)
        · exact .inr ⟨xs, f, by simp, hf, h⟩
        · exact .inl ⟨by simp [h], hn⟩
        · exact .inr ⟨xs, f, by simp [hm], hf, he⟩
      · rintro (⟨h, hn⟩ | ⟨xs', f', hm, hf', he⟩)
        · rcases List.mem_cons.1 h with h | h
          · exact absurd h (hn _)
          · exact .inr (.inl ⟨h, hn⟩)
        · rcases List.mem_cons.1 hm with h | h
          · refine .inl ?_
            rw [hf] at hf'
            cases hf'
            cases h
            exact he
          · exact .inr (.inr ⟨xs', f', h, hf', he⟩)

theorem keys_convertSize {inches : String → Except Err K} {u : String} :
    ∀ {d d' : Settings K}, convertSize inches u d = .ok d' → d'.map (·.1) = d.map (·.1)
  | [], d', h => by cases h; rfl
  | p :: d, d', h => by
    obtain ⟨q, r, rfl, hr, hk, -⟩ := convertSize_cons h
    simp [keys_convertSize hr, hk]

theorem keys_collect (os : List (String × Option (Val K))) :
    ((collect os).map (·.1)).Sublist (os.map (·.1)) := by
  induction os with
  | nil => simp [collect]
  | cons p os ih =>
    obtain ⟨k, o⟩ := p
    simp only [collect, List.filterMap_cons] at ih ⊢
    rcases o with _ | v
    · simpa [truthy] using ih.trans (List.sublist_cons_self _ _)
    · by_cases ht : truthy (some v) = true
      · simpa [ht] using ih
      · simpa [ht] using ih.trans (List.sublist_cons_self _ _)

theorem keys_explicit {inches : String → Except Err K} {a : Args K} {d : Settings K}
    (h : explicitArgs inches a = .ok d) : (d.map (·.1)).Nodup := by
  rw [keys_convertSize h]
  have hs := keys_collect (options a)
  have ho : (options a).map (·.1) =
      ["image.cmap", "font.size", "font.sans-serif", "lines.linewidth", "figure.figsize"] := rfl
  rw [ho] at hs
  unfold addFamily
  split_ifs
  · rw [List.map_append]
    have : ((collect (options a)).map (·.1) ++ ["font.family"]).Sublist
        (["image.cmap", "font.size", "font.sans-serif", "lines.linewidth", "figure.figsize"] ++ ["font.family"]) :=
      List.Sublist.append hs (List.Sublist.refl _)
    exact this.nodup (by decide)
  · exact hs.nodup (by decide)

/-- What the dictionary of explicit options holds. -/
theorem mem_explicit {inches : String → Except Err K} {a : Args K} {d : Settings K}
    (h : explicitArgs inches a = .ok d) {k : String} {v : Val K} (hm : (k, v) ∈ d) : Asked inches a k v := by
  rw [mem_convertSize h] at hm
  simp only [mem_addFamily, mem_collect, options, List.mem_cons, List.not_mem_nil, or_false, Prod.mk.injEq] at hm
  rcases hm with ⟨⟨hk, -⟩ | ⟨⟨w, hw, -⟩, rfl, rfl⟩, hn⟩ | ⟨xs, f, ⟨hk, -⟩ | ⟨-, hk, -⟩, hf, hkv⟩
  · rcases hk with ⟨rfl, hv⟩ | ⟨rfl, hv⟩ | ⟨rfl, hv⟩ | ⟨rfl, hv⟩ | ⟨rfl, hv⟩
    · obtain ⟨s, hs, rfl⟩ := Option.map_eq_some_iff.1 hv.symm
      exact .inl ⟨rfl, s, hs, rfl⟩
    · obtain ⟨s, hs, rfl⟩ := Option.map_eq_some_iff.1 hv.symm
      exact .inr (.inl ⟨rfl, s, hs, rfl⟩)
    · obtain ⟨s, hs, rfl⟩ := Option.map_eq_some_iff.1 hv.symm
      exact .inr (.inr (.inl ⟨rfl, s, hs, rfl⟩))
    · obtain ⟨s, hs, rfl⟩ := Option.map_eq_some_iff.1 hv.symm
      exact .inr (.inr (.inr (.inr (.inl ⟨rfl, s, hs, rfl⟩))))
    · obtain ⟨s, hs, rfl⟩ := Option.map_eq_some_iff.1 hv.symm
      exact absurd rfl (hn s)
  · simp only [String.reduceEq, false_and, true_and, false_or, or_false] at hw
    obtain ⟨s, hs, rfl⟩ := Option.map_eq_some_iff.1 hw.symm
    exact .inr (.inr (.inr (.inl ⟨rfl, ⟨s, hs⟩, rfl⟩)))
  · simp only [String.reduceEq, false_and, true_and, false_or] at hk
    obtain ⟨s, hs, hv⟩ := Option.map_eq_some_iff.1 hk.symm
    cases hv
    obtain ⟨rfl, rfl⟩ := hkv
    exact .inr (.inr (.inr (.inr (.inr ⟨rfl, _, f, hs, hf, rfl⟩))))
  · simp at hk

/-- Options that are not zero or empty are in the dictionary. -/
theorem explicit_mem {inches : String → Except Err K} {a : Args K} {d : Settings K} (hz : NonZero a)
    (h : explicitArgs inches a = .ok d) {k : String} {v : Val K} (hv : Asked inches a k v) : (k, v) ∈ d := by
  rw [mem_convertSize h]
  simp only [mem_addFamily, mem_collect, options, List.mem_cons, List.not_mem_nil, or_false, Prod.mk.injEq]
  rcases hv with ⟨rfl, s, hs, rfl⟩ | ⟨rfl, s, hs, rfl⟩ | ⟨rfl, s, hs, rfl⟩ | ⟨rfl, ⟨s, hs⟩, rfl⟩ |
    ⟨rfl, s, hs, rfl⟩ | ⟨rfl, s, f, hs, hf, rfl⟩
  · refine .inl ⟨.inl ⟨by simp [hs], ?_⟩, by simp⟩
    simp [truthy, isEmpty_of_ne (s := s) fun e => hz.cmap (by rw [hs, e])]
  · refine .inl ⟨.inl ⟨by simp [hs], ?_⟩, by simp⟩
    have : s ≠ 0 := fun e => hz.fontsize (by rw [hs, e])
    simp [truthy, this]
  · refine .inl ⟨.inl ⟨by simp [hs], ?_⟩, by simp⟩
    simp [truthy, isEmpty_of_ne (s := s) fun e => hz.font (by rw [hs, e])]
  · refine .inl ⟨.inr ⟨⟨.str s, by simp [hs], ?_⟩, rfl, rfl⟩, by simp⟩
    simp [truthy, isEmpty_of_ne (s := s) fun e => hz.font (by rw [hs, e])]
  · refine .inl ⟨.inl ⟨by simp [hs], ?_⟩, by simp⟩
    have : s ≠ 0 := fun e => hz.linewidth (by rw [hs, e])
    simp [truthy, this]
  · refine .inr ⟨s, f, .inl ⟨by simp [hs], ?_⟩, hf, rfl, rfl⟩
    rcases s with _ | ⟨x, s⟩
    · exact absurd hs hz.figsize
    · simp [truthy]

theorem lastOf_of_mem {d : Settings K} (hd : (d.map (·.1)).Nodup) {k : String} {v : Val K} (h : (k, v) ∈ d) :
    lastOf d k = some v := by
  rcases hl : lastOf d k with _ | w
  · exact absurd h (lastOf_none_mem hl v)
  · have := lastOf_some_mem hl
    have hi := List.inj_on_of_nodup_map hd h this rfl
    cases hi
    rfl

/-- The styles that come before the explicit options. -/
def sheets (a : Args K) (base : Option (List (Elem K))) : List (Elem K) :=
  (if a.noBaseStyle then [] else base.getD []) ++ (a.style.getD []).map .sheet

theorem composeStyle_eq {inches : String → Except Err K} {a : Args K} {base : Option (List (Elem K))}
    {st : List (Elem K)} {b' : Option (List (Elem K))} (h : composeStyle inches a base = .ok (st, b')) :
    ∃ d, explicitArgs inches a = .ok d ∧ st = sheets a base ++ [.dict d] := by
  unfold composeStyle at h
  rcases hd : explicitArgs inches a with e | d <;> simp only [hd, bind, Except.bind] at h
  · cases h
  refine ⟨d, rfl, ?_⟩
  rcases base with _ | b
  · cases h
    simp [sheets]
  · by_cases hn : a.noBaseStyle = true
    · simp only [hn, if_true] at h
      cases h
      simp [sheets, hn]
    · simp only [hn] at h
      cases h
      simp [sheets, hn]

theorem applyStyles_append (sheet : String → Settings K) (es fs : List (Elem K)) (rc : String → Option (Val K)) :
    applyStyles sheet rc (es ++ fs) = applyStyles sheet (applyStyles sheet rc es) fs := by
  induction es generalizing rc with
  | nil => rfl
  | cons e es ih => exact ih _

/-- **C125 (explicit options).** An option that is given takes effect, whatever the style sheets in use say and
whatever Matplotlib's settings are; the size of the figure is converted to inches.  Full claim: also for zero or an
empty string; see `C125_zero_ignored`. -/
theorem C125_explicit_partial {inches : String → Except Err K} {a : Args K} {base : Option (List (Elem K))}
    {st : List (Elem K)} {b' : Option (List (Elem K))} (hz : NonZero a)
    (h : composeStyle inches a base = .ok (st, b')) (sheet : String → Settings K)
    (rc : String → Option (Val K)) {k : String} {v : Val K} (hv : Asked inches a k v) :
    applyStyles sheet rc st k = some v := by
  obtain ⟨d, hd, rfl⟩ := composeStyle_eq h
  rw [applyStyles_append]
  simp [applyStyles, contents, lastOf_of_mem (keys_explicit hd) (explicit_mem hz hd hv)]

/-- **C125 (precedence of style sheets).** A setting that is not given as an option has the value of the last style
sheet that sets it, where the user's sheets in the order given come after Euphonic's own (left out with
`--no-base-style`); if none sets it, it keeps Matplotlib's value. -/
theorem C125_sheets {inches : String → Except Err K} {a : Args K} {base : Option (List (Elem K))}
    {st : List (Elem K)} {b' : Option (List (Elem K))} (h : composeStyle inches a base = .ok (st, b'))
    (sheet : String → Settings K) (rc : String → Option (Val K)) {k : String} (hv : ∀ v, ¬ Asked inches a k v) :
    InForce sheet rc ((if a.noBaseStyle then [] else base.getD []) ++ (a.style.getD []).map .sheet) k
      (applyStyles sheet rc st k) := by
  obtain ⟨d, hd, rfl⟩ := composeStyle_eq h
  have hl : lastOf d k = none := by
    rcases hl : lastOf d k with _ | w
    · rfl
    · exact absurd (mem_explicit hd (lastOf_some_mem hl)) (hv w)
  rw [applyStyles_append]
  simp only [applyStyles, contents, hl, Option.none_or]
  exact applyStyles_inForce sheet k _ rc

theorem convertSize_ok {inches : String → Except Err K} {u : String} : ∀ (d : Settings K),
    ((∃ f, inches u = .ok f) ∨ ∀ xs, ("figure.figsize", .nums xs) ∉ d) → ∃ d', convertSize inches u d = .ok d'
  | [], _ => ⟨[], rfl⟩
  | (k, v) :: d, h => by
    obtain ⟨r, hr⟩ := convertSize_ok d (h.imp id fun h xs hm => h xs (List.mem_cons_of_mem _ hm))
    rcases v with s | x | xs
    · exact ⟨_, by simp only [convertSize, hr, bind, Except.bind]; rfl⟩
    · exact ⟨_, by simp only [convertSize, hr, bind, Except.bind]; rfl⟩
    · by_cases hk : k = "figure.figsize"
      · rcases h with ⟨f, hf⟩ | h
        · exact ⟨_, by simp only [convertSize, hr, hf, hk, if_true, bind, Except.bind]; rfl⟩
        · exact absurd (by rw [hk]; exact List.mem_cons_self) (h xs)
      · exact ⟨_, by simp only [convertSize, hr, hk, if_false, bind, Except.bind]; rfl⟩

theorem convertSize_error {inches : String → Except Err K} {u : String} {e : Err} (he : inches u = .error e) :
    ∀ (d : Settings K) (xs : List K), ("figure.figsize", .nums xs) ∈ d → convertSize inches u d = .error e
  | (k, v) :: d, xs, h => by
    by_cases hk : (k, v) = ("figure.figsize", .nums xs)
    · cases hk
      simp only [convertSize, he, if_true, bind, Except.bind]
    · have hm : ("figure.figsize", .nums xs) ∈ d := (List.mem_cons.1 h).resolve_left fun e => hk e.symm
      have ih := convertSize_error he d xs hm
      rcases v with s | x | ys
      · simp only [convertSize, ih, bind, Except.bind]
      · simp only [convertSize, ih, bind, Except.bind]
      · by_cases hf : k = "figure.figsize"
        · simp only [convertSize, he, hf, if_true, bind, Except.bind]
        · simp only [convertSize, ih, hf, if_false, bind, Except.bind]

/-- **C125 (units of the size).** The unit of the size of the figure matters only if a size is given: then a unit that
Pint cannot convert to inches is an error, otherwise the styles are always found. -/
theorem C125_unit {inches : String → Except Err K} (a : Args K) (base : Option (List (Elem K)))
    (hf : a.figsize ≠ some []) :
    (∀ e xs, inches a.figsizeUnit = .error e → a.figsize = some xs → composeStyle inches a base = .error e) ∧
    ((∃ f, inches a.figsizeUnit = .ok f) ∨ a.figsize = none → ∃ r, composeStyle inches a base = .ok r) := by
  have hmem : ∀ xs, ("figure.figsize", Val.nums xs) ∈ addFamily (collect (options a)) ↔ a.figsize = some xs := by
    intro xs
    simp only [mem_addFamily, mem_collect, options, List.mem_cons, List.not_mem_nil, or_false, Prod.mk.injEq,
      String.reduceEq, false_and, and_false, true_and, false_or]
    constructor
    · rintro ⟨h, -⟩
      obtain ⟨s, hs, hv⟩ := Option.map_eq_some_iff.1 h.symm
      cases hv
      exact hs
    · intro h
      refine ⟨by simp [h], ?_⟩
      rcases xs with _ | ⟨x, xs⟩
      · exact absurd h hf
      · simp [truthy]
  constructor
  · intro e xs he hx
    have := convertSize_error he _ xs ((hmem xs).2 hx)
    simp only [composeStyle, explicitArgs, this, bind, Except.bind]
  · intro h
    obtain ⟨d, hd⟩ := convertSize_ok (inches := inches) (u := a.figsizeUnit) (addFamily (collect (options a)))
      (h.imp id fun h xs hm => by rw [hmem, h] at hm; cases hm)
    have hd' : explicitArgs inches a = .ok d := hd
    simp only [composeStyle, hd', bind, Except.bind]
    rcases base with _ | b
    · exact ⟨_, rfl⟩
    · dsimp only
      split_ifs <;> exact ⟨_, rfl⟩

/-- The options of the examples: nothing given. -/
def plain : Args Rat := ⟨false, none, none, none, none, none, none, "cm"⟩

/-- Inches per centimetre. -/
def perCm : String → Except Err Rat := fun u => if u = "cm" then .ok (50 / 127) else .error .attributeError

/-- Contents of the style sheets of the examples. -/
def someSheet : String → Settings Rat := fun s =>
  if s = "base.mplstyle" then [("font.size", .num 10), ("lines.linewidth", .num 2)]
  else if s = "mine" then [("font.size", .num 8)] else []

/-- **C125, violated for zero.** `--line-width 0` (lines that are not drawn) is ignored: the width of the base style
remains. -/
theorem C125_zero_ignored :
    ∃ st b', composeStyle perCm { plain with linewidth := some 0 } (some (toolBase false)) = .ok (st, b') ∧
      Asked perCm { plain with linewidth := some 0 } "lines.linewidth" (.num 0) ∧
      applyStyles someSheet (fun _ => none) st "lines.linewidth" = some (.num 2) :=
  ⟨_, _, rfl, .inr (.inr (.inr (.inr (.inl ⟨rfl, 0, rfl, rfl⟩)))), by decide +kernel⟩

/-- **C125, side effect.** The list of base styles of the caller is changed: used again it brings along the options of
the first call. -/
theorem C125_base_changed :
    ∃ st b' st' b'', composeStyle perCm { plain with fontsize := some 20 } (some (toolBase false)) = .ok (st, b') ∧
      b' ≠ some (toolBase false) ∧ composeStyle perCm plain b' = .ok (st', b'') ∧
      applyStyles someSheet (fun _ => none) st' "font.size" = some (.num 20) :=
  ⟨_, _, _, _, rfl, by decide +kernel, rfl, by decide +kernel⟩

/-- Beside C125: a font, a size of 10 cm by 20 cm, the user's sheet with a smaller font and the base style. -/
example :
    ∃ st b', composeStyle perCm
        { plain with font := some "Arial", figsize := some [10, 20], style := some ["mine"] }
        (some (toolBase false)) = .ok (st, b') ∧
      NonZero ({ plain with font := some "Arial", figsize := some [10, 20], style := some ["mine"] } : Args Rat) ∧
      applyStyles someSheet (fun _ => none) st "font.family" = some (.str "sans-serif") ∧
      applyStyles someSheet (fun _ => none) st "figure.figsize" = some (.nums [500 / 127, 1000 / 127]) ∧
      applyStyles someSheet (fun _ => none) st "font.size" = some (.num 8) ∧
      applyStyles someSheet (fun _ => none) st "lines.linewidth" = some (.num 2) :=
  ⟨_, _, rfl, ⟨by decide, by decide, by decide, by decide, by decide⟩, by decide +kernel, by decide +kernel,
    by decide +kernel, by decide +kernel⟩

end Euphonic.Style
