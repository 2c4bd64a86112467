import Verif.Model.Args
import Mathlib.Data.List.Nodup
import Mathlib.Tactic.Common

/-!
# The namespaces that the command-line parsers give (C127)
-/

set_option autoImplicit false
set_option linter.unusedSectionVars false

namespace Euphonic.Args

variable {K : Type}

/-! ## Specification -/

/-- `x` is the value of type `t` that the string `s` stands for. -/
def Reads (c : Conv K) (t : Typ) (s : String) (x : Scalar K) : Prop :=
  match t with
  | .str => x = .str s
  | .int => ∃ z, c.int s = some z ∧ x = .int z
  | .flt => ∃ r, c.flt s = some r ∧ x = .flt r

/-- `x` is one of the choices, if there are any. -/
def Chosen (o : Opt K) (x : Scalar K) : Prop := ∀ l, o.choices = some l → ∃ s ∈ l, x = .str s

/-- The string `s` is an acceptable value of the option and stands for `x`. -/
def ReadAs (c : Conv K) (o : Opt K) (s : String) (x : Scalar K) : Prop := Reads c o.typ s x ∧ Chosen o x

/-- `nargs` allows `n` strings. -/
def Fits (na : NArgs) (n : Nat) : Prop :=
  match na with
  | .one => n = 1
  | .num k => n = k
  | .opt => n ≤ 1
  | .star => True
  | .plus => 1 ≤ n
  | .flag => n = 0

/-- The strings after the option stand for the value `v`: for a flag the constant; one value where one is stored; for `'?'`
the constant if nothing follows; else the list of the values. -/
def Means (c : Conv K) (o : Opt K) (vals : List String) (v : Val K) : Prop :=
  Fits o.nargs vals.length ∧
  match o.nargs with
  | .flag => v = o.const
  | .one => ∃ s x, vals = [s] ∧ ReadAs c o s x ∧ v = .one x
  | .opt => (vals = [] ∧ (∀ x, o.const = .one x → Chosen o x) ∧ v = o.const) ∨
      ∃ s x, vals = [s] ∧ ReadAs c o s x ∧ v = .one x
  | _ => ∃ l, List.Forall₂ (ReadAs c o) vals l ∧ v = .list l

/-! ## Lemmas -/

theorem bindOk {ε α β : Type} {x : Except ε α} {f : α → Except ε β} {b : β} (h : x.bind f = .ok b) :
    ∃ a, x = .ok a ∧ f a = .ok b := by
  cases x with
  | error e => simp [Except.bind] at h
  | ok a => exact ⟨a, rfl, h⟩

theorem allowed_iff (o : Opt K) (x : Scalar K) : allowed o x = true ↔ Chosen o x := by
  unfold allowed Chosen
  cases o.choices with
  | none => simp
  | some l =>
    cases x with
    | str s => simp
    | int z => simp
    | flt r => simp

theorem getValue_iff (c : Conv K) (t : Typ) (s : String) (x : Scalar K) :
    getValue c t s = .ok x ↔ Reads c t s x := by
  unfold getValue Reads
  cases t with
  | str => simp [eq_comm]
  | int => cases h : c.int s <;> simp [eq_comm]
  | flt => cases h : c.flt s <;> simp [eq_comm]

theorem scalar_iff (c : Conv K) (o : Opt K) (s : String) (x : Scalar K) :
    scalar c o s = .ok x ↔ ReadAs c o s x := by
  unfold scalar ReadAs
  rw [← getValue_iff, ← allowed_iff]
  cases h : getValue c o.typ s with
  | error e => simp [Except.bind]
  | ok y =>
    simp only [Except.bind, Except.ok.injEq]
    by_cases ha : allowed o y = true
    · simp only [ha, if_true, Except.ok.injEq]
      constructor
      · rintro rfl; exact ⟨rfl, ha⟩
      · exact fun h => h.1
    · simp only [ha]
      simp only [Bool.false_eq_true, if_false]
      constructor
      · intro h; cases h
      · rintro ⟨rfl, h⟩; exact absurd h ha

theorem mapM_iff (c : Conv K) (o : Opt K) (vals : List String) (l : List (Scalar K)) :
    vals.mapM (scalar c o) = .ok l ↔ List.Forall₂ (ReadAs c o) vals l := by
  induction vals generalizing l with
  | nil =>
    simp only [List.mapM_nil, List.forall₂_nil_left_iff]
    constructor
    · intro h; cases h; rfl
    · rintro rfl; rfl
  | cons s vals ih =>
    rw [List.mapM_cons, List.forall₂_cons_left_iff]
    constructor
    · intro h
      obtain ⟨x, hx, h⟩ := bindOk h
      obtain ⟨r, hr, h⟩ := bindOk h
      cases h
      exact ⟨x, r, (scalar_iff c o s x).1 hx, (ih r).1 hr, rfl⟩
    · rintro ⟨x, r, hx, hr, rfl⟩
      rw [(scalar_iff c o s x).2 hx]
      show Except.bind (List.mapM (scalar c o) vals) _ = _
      rw [(ih r).2 hr]
      rfl

theorem mapOk {ε α β : Type} {x : Except ε α} {f : α → β} {b : β} :
    x.map f = .ok b ↔ ∃ a, x = .ok a ∧ b = f a := by
  cases x with
  | error e => simp [Except.map]
  | ok a => simp [Except.map, eq_comm]

theorem getValues_iff (c : Conv K) (o : Opt K) (vals : List String) (v : Val K) (hf : Fits o.nargs vals.length) :
    getValues c o vals = .ok v ↔ Means c o vals v := by
  unfold Means
  rw [and_iff_right hf]
  unfold getValues
  cases hn : o.nargs with
  | flag => simp [eq_comm]
  | one =>
    rw [hn] at hf
    obtain ⟨s, rfl⟩ := List.length_eq_one_iff.1 hf
    simp only [mapOk, scalar_iff]
    constructor
    · rintro ⟨x, h, rfl⟩; exact ⟨s, x, rfl, h, rfl⟩
    · rintro ⟨s', x, h', h, rfl⟩; cases h'; exact ⟨x, h, rfl⟩
  | opt =>
    rw [hn] at hf
    match vals, hf with
    | [], _ =>
      simp only [true_and, reduceCtorEq, false_and, exists_false, or_false, List.nil_eq]
      cases hc : o.const with
      | one x =>
        simp only [Val.one.injEq, forall_eq', ← allowed_iff]
        by_cases ha : allowed o x = true <;> simp [ha, eq_comm]
      | none => simp [eq_comm]
      | bool b => simp [eq_comm]
      | list l => simp [eq_comm]
    | [s], _ =>
      simp only [mapOk, scalar_iff, reduceCtorEq, false_and, false_or]
      constructor
      · rintro ⟨x, h, rfl⟩; exact ⟨s, x, rfl, h, rfl⟩
      · rintro ⟨s', x, h', h, rfl⟩; cases h'; exact ⟨x, h, rfl⟩
    | _ :: _ :: _, hf => exact absurd hf (by simp [Fits])
  | num k => simp only [mapOk, mapM_iff]
  | star => simp only [mapOk, mapM_iff]
  | plus => simp only [mapOk, mapM_iff]

theorem count_fits {na : NArgs} {n k : Nat} (h : count na n = some k) (l : List String) (hl : l.length = n) :
    Fits na (l.take k).length := by
  subst hl
  rw [List.length_take]
  cases na <;> simp only [count, Option.ite_none_right_eq_some, Option.some.injEq] at h <;> simp only [Fits] <;> omega

theorem lookup_mem {P : List (Opt K)} {s : String} {o : Opt K} (h : lookup P s = some o) : o ∈ P :=
  List.mem_of_find?_eq_some h

theorem optionTuples_mem {P : List (Opt K)} {s : String} {o : Opt K} {n : String} {e : Option (Bool × String)}
    (h : OTok.opt o n e ∈ optionTuples P s) : o ∈ P := by
  have key : ∀ x ∈ P.flatMap fun o => o.names.map fun n => (n, o), x.2 ∈ P := by
    intro x hx
    simp only [List.mem_flatMap, List.mem_map] at hx
    obtain ⟨a, ha, b, _, rfl⟩ := hx
    exact ha
  unfold optionTuples at h
  dsimp only at h
  split at h
  · simp only [List.mem_map, List.mem_filter] at h
    obtain ⟨x, ⟨hx, _⟩, h⟩ := h
    cases h
    exact key x hx
  · simp only [List.mem_filterMap] at h
    obtain ⟨x, hx, h⟩ := h
    split at h
    · cases h; exact key x hx
    · split at h
      · cases h; exact key x hx
      · cases h

theorem parseOptional_mem {P : List (Opt K)} {s : String} {o : Opt K} {n : String} {e : Option (Bool × String)}
    (h : parseOptional P s = .ok (some (.opt o n e))) : o ∈ P := by
  unfold parseOptional at h
  split at h
  · split at h
    · rename_i o' hl
      cases h
      exact lookup_mem hl
    · split at h
      · cases h
      · split at h
        · rename_i t ht
          cases h
          obtain ⟨⟨a, b⟩, _, h⟩ := Option.bind_eq_some_iff.1 ht
          obtain ⟨o', hl, h⟩ := Option.map_eq_some_iff.1 h
          cases h
          exact lookup_mem hl
        · split at h
          · rename_i t ht
            cases h
            exact optionTuples_mem (P := P) (s := s) (by rw [ht]; exact List.mem_singleton.2 rfl)
          · cases h
          · split at h
            · cases h
            · split at h <;> cases h
  · cases h

/-- Options of the cut command line belong to the parser. -/
theorem cut_mem {P : List (Opt K)} {params : List String} {l : Line K} (h : cut P params = .ok l) {o : Opt K} {n : String}
    {e : Option (Bool × String)} {a : List String} (ho : (OTok.opt o n e, a) ∈ l.groups) : o ∈ P := by
  induction params generalizing l a with
  | nil => cases h; cases ho
  | cons s params ih =>
    unfold cut at h
    split at h
    · cases h; cases ho
    · obtain ⟨t, ht, h⟩ := bindOk h
      obtain ⟨r, hr, h⟩ := bindOk h
      cases t with
      | none => cases h; exact ih hr ho
      | some t =>
        cases h
        rcases List.mem_cons.1 ho with h | h
        · cases h
          exact parseOptional_mem ht
        · exact ih hr h

/-! ## The invariant -/

/-- What the state of the parser says about the attributes. -/
structure Inv (c : Conv K) (P : List (Opt K)) (st : St K) : Prop where
  pos : ∀ p ∈ st.positionals, p ∈ P ∧ p.names = [] ∧ p.nargs = .one
  val : ∀ d, (st.ns d = defaults P d ∧ ∀ p ∈ P, p.help = false → p.names = [] → p.dest = d → p ∈ st.positionals) ∨
    ∃ o ∈ P, o.help = false ∧ o.dest = d ∧ ∃ vals v, st.ns d = some v ∧ Means c o vals v
  seen : ∀ g n n', (g, n) ∈ st.seen → (g, n') ∈ st.seen → n = n'
  grp : ∀ d, st.ns d = defaults P d ∨ ∃ o ∈ P, o.dest = d ∧ ∀ g, o.group = some g → (g, o.names) ∈ st.seen

theorem Inv.mark {c : Conv K} {P : List (Opt K)} {st : St K} (h : Inv c P st) : Inv c P { st with extras := true } :=
  ⟨h.pos, h.val, h.seen, h.grp⟩

theorem not_excluded {o : Opt K} {st : St K} (h : excluded o st = false) {g : Nat} (hg : o.group = some g) {n : List String}
    (hn : (g, n) ∈ st.seen) : n = o.names := by
  unfold excluded at h
  rw [hg] at h
  simp only [List.any_eq_false, Bool.and_eq_true, decide_eq_true_eq, not_and, not_not] at h
  exact h _ hn rfl

/-- What `takeAction` does when it succeeds. -/
theorem takeAction_ok {c : Conv K} {o : Opt K} {vals : List String} {st st' : St K} (hf : Fits o.nargs vals.length)
    (h : takeAction c o vals st = .ok st') :
    excluded o st = false ∧ o.help = false ∧ ∃ v, Means c o vals v ∧ st' = { st with
      ns := fun d => if d = o.dest then some v else st.ns d
      seen := match o.group with
        | none => st.seen
        | some g => (g, o.names) :: st.seen } := by
  unfold takeAction at h
  obtain ⟨v, hv, h⟩ := bindOk h
  rw [getValues_iff c o vals v hf] at hv
  split at h
  · cases h
  · split at h
    · cases h
    · rename_i h1 h2
      cases h
      exact ⟨by simpa using h1, by simpa using h2, v, hv, rfl⟩

theorem Inv.take {c : Conv K} {P : List (Opt K)} {st st' : St K} {o : Opt K} {vals : List String} {ps : List (Opt K)}
    (h : Inv c P st) (ho : o ∈ P) (hf : Fits o.nargs vals.length)
    (hps : st.positionals = ps ∨ st.positionals = o :: ps)
    (ht : takeAction c o vals { st with positionals := ps } = .ok st') : Inv c P st' := by
  obtain ⟨hex, hh, v, hv, rfl⟩ := takeAction_ok hf ht
  have hsub : ∀ p ∈ ps, p ∈ st.positionals := by
    rcases hps with e | e <;> rw [e]
    · exact fun p hp => hp
    · exact fun p hp => List.mem_cons_of_mem _ hp
  have hsub' : ∀ p ∈ st.positionals, p.dest ≠ o.dest → p ∈ ps := by
    rcases hps with e | e <;> rw [e]
    · exact fun p hp _ => hp
    · intro p hp hd
      rcases List.mem_cons.1 hp with rfl | hp
      · exact absurd rfl hd
      · exact hp
  refine ⟨fun p hp => h.pos p (hsub p hp), fun d => ?_, ?_, fun d => ?_⟩
  · by_cases hd : d = o.dest
    · right
      exact ⟨o, ho, hh, hd.symm, vals, v, by simp [hd], hv⟩
    · rcases h.val d with ⟨h1, h2⟩ | ⟨o', ho', hh', hd', vals', v', h1, h2⟩
      · left
        refine ⟨by simpa [hd] using h1, fun p hp1 hp2 hp3 hp4 => hsub' p (h2 p hp1 hp2 hp3 hp4) ?_⟩
        rw [hp4]; exact hd
      · right
        exact ⟨o', ho', hh', hd', vals', v', by simpa [hd] using h1, h2⟩
  · intro g n n' h1 h2
    dsimp only at h1 h2
    cases hg : o.group with
    | none =>
      rw [hg] at h1 h2
      exact h.seen g n n' h1 h2
    | some g' =>
      rw [hg] at h1 h2
      rcases List.mem_cons.1 h1 with e1 | k1 <;> rcases List.mem_cons.1 h2 with e2 | k2
      · cases e1; cases e2; rfl
      · cases e1
        exact (not_excluded (st := { st with positionals := ps }) hex hg k2).symm
      · cases e2
        exact not_excluded (st := { st with positionals := ps }) hex hg k1
      · exact h.seen g n n' k1 k2
  · have hmono : ∀ x, x ∈ st.seen → x ∈ (match o.group with
        | none => st.seen
        | some g => (g, o.names) :: st.seen) := by
      intro x hx
      cases o.group with
      | none => exact hx
      | some g => exact List.mem_cons_of_mem _ hx
    by_cases hd : d = o.dest
    · right
      refine ⟨o, ho, hd.symm, fun g hg => ?_⟩
      simp [hg]
    · rcases h.grp d with h1 | ⟨o', ho', hd', h1⟩
      · left; simpa [hd] using h1
      · right; exact ⟨o', ho', hd', fun g hg => hmono _ (h1 g hg)⟩

theorem Inv.feed {c : Conv K} {P : List (Opt K)} (l : List String) {st st' : St K} (h : Inv c P st)
    (hr : Args.feed c l st = .ok st') : Inv c P st' := by
  induction l generalizing st with
  | nil => cases hr; exact h
  | cons s l ih =>
    unfold Args.feed at hr
    split at hr
    · exact ih h.mark hr
    · rename_i p ps hp
      obtain ⟨st1, h1, hr⟩ := bindOk hr
      have hpp := h.pos p (by rw [hp]; exact List.mem_cons_self)
      exact ih (h.take hpp.1 (by rw [hpp.2.2]; rfl) (Or.inr hp) h1) hr

theorem Inv.group {c : Conv K} {P : List (Opt K)} {g : OTok K × List String}
    (hg : ∀ o n e, g.1 = .opt o n e → o ∈ P) {st st' : St K} (h : Inv c P st) (hr : doGroup c g st = .ok st') :
    Inv c P st' := by
  unfold doGroup at hr
  split at hr
  · exact h.mark.feed _ hr
  · rename_i o n heq
    have ho := hg o n none heq
    split at hr
    · cases hr
    · rename_i k hk
      obtain ⟨st1, h1, hr⟩ := bindOk hr
      exact (h.take (ps := st.positionals) ho (count_fits hk g.2 rfl) (Or.inl rfl) h1).feed _ hr
  · rename_i o n sep e heq
    have ho := hg o n _ heq
    split at hr
    · rename_i hn
      split at hr
      · cases hr
      · obtain ⟨st1, h1, hr⟩ := bindOk hr
        exact (h.take (ps := st.positionals) ho (by rw [hn]; rfl) (Or.inl rfl) h1).feed _ hr
    · split at hr
      · rename_i hn hk
        obtain ⟨st1, h1, hr⟩ := bindOk hr
        exact (h.take (ps := st.positionals) ho (count_fits hk [e] rfl) (Or.inl rfl) h1).feed _ hr
      · cases hr

theorem Inv.groups {c : Conv K} {P : List (Opt K)} (gs : List (OTok K × List String))
    (hg : ∀ o n e a, (OTok.opt o n e, a) ∈ gs → o ∈ P) {st st' : St K} (h : Inv c P st)
    (hr : doGroups c gs st = .ok st') : Inv c P st' := by
  induction gs generalizing st with
  | nil => cases hr; exact h
  | cons g gs ih =>
    unfold doGroups at hr
    obtain ⟨st1, h1, hr⟩ := bindOk hr
    refine ih (fun o n e a ha => hg o n e a (List.mem_cons_of_mem _ ha)) (h.group ?_ h1) hr
    rintro o n e he
    exact hg o n e g.2 (List.mem_cons.2 (Or.inl (by rw [← he])))

/-- Positional arguments take one value each. -/
def OnePos (P : List (Opt K)) : Prop := ∀ p ∈ P, p.names = [] → p.nargs = .one

theorem Inv.start {c : Conv K} {P : List (Opt K)} (hP : OnePos P) : Inv c P (Args.start P) := by
  refine ⟨?_, fun d => Or.inl ⟨rfl, ?_⟩, ?_, fun d => Or.inl rfl⟩
  · intro p hp
    simp only [Args.start, List.mem_filter, List.isEmpty_iff] at hp
    exact ⟨hp.1, hp.2, hP p hp.1 hp.2⟩
  · intro p hp _ hn _
    simp only [Args.start, List.mem_filter, List.isEmpty_iff]
    exact ⟨hp, hn⟩
  · intro g n n' h
    cases h

theorem Inv.final {c : Conv K} {P : List (Opt K)} (hP : OnePos P) {params : List String} {ns : String → Option (Val K)}
    (h : getArgs c P params = .ok ns) : ∃ st, Inv c P st ∧ st.positionals = [] ∧ st.ns = ns := by
  unfold getArgs at h
  obtain ⟨l, hl, h⟩ := bindOk h
  obtain ⟨s1, h1, h⟩ := bindOk h
  obtain ⟨s2, h2, h⟩ := bindOk h
  obtain ⟨s3, h3, h⟩ := bindOk h
  have i2 : Inv c P s2 := ((Inv.start hP).feed _ h1).groups l.groups (fun o n e a ha => cut_mem hl ha) h2
  have i3 : Inv c P s3 := by
    unfold doTail at h3
    split at h3
    · cases h3; exact i2
    · split at h3
      · exact i2.feed _ h3
      · exact i2.mark.feed _ h3
  unfold finish at h
  split at h
  · rename_i hf
    cases h
    simp only [Bool.and_eq_true, List.isEmpty_iff] at hf
    exact ⟨s3, i3, hf.1, rfl⟩
  · cases h

/-! ## Theorems -/

/-- **C127.** Whatever the command line, if it is accepted then every attribute of the parser is set, to a value that
strings on the command line can stand for, for one of the options with that attribute, or to the default; a positional
argument is always given. -/
theorem C127_typed (c : Conv K) (P : List (Opt K)) (hP : OnePos P) (params : List String) (ns : String → Option (Val K))
    (h : getArgs c P params = .ok ns) (o : Opt K) (ho : o ∈ P) (hh : o.help = false) :
    ∃ v, ns o.dest = some v ∧ ∃ o' ∈ P, o'.help = false ∧ o'.dest = o.dest ∧ ((v = o'.default ∧ o'.names ≠ []) ∨ ∃ vals, Means c o' vals v) := by
  obtain ⟨st, hi, hp, rfl⟩ := Inv.final hP h
  rcases hi.val o.dest with ⟨h1, h2⟩ | ⟨o', ho', hh', hd', vals, v, h1, h2⟩
  · obtain ⟨o', hf⟩ : ∃ o', ((P.filter fun o => !o.help).find? fun o' => o'.dest = o.dest) = some o' := by
      rw [← Option.isSome_iff_exists, List.find?_isSome]
      exact ⟨o, List.mem_filter.2 ⟨ho, by simp [hh]⟩, by simp⟩
    have hm := List.mem_filter.1 (List.mem_of_find?_eq_some hf)
    have hd : o'.dest = o.dest := by simpa using List.find?_some hf
    refine ⟨o'.default, by rw [h1, defaults, hf]; rfl, o', hm.1, by simpa using hm.2, hd, Or.inl ⟨rfl, fun hn => ?_⟩⟩
    have := h2 o' hm.1 (by simpa using hm.2) hn hd
    rw [hp] at this
    cases this
  · exact ⟨v, h1, o', ho', hh', hd', Or.inr ⟨vals, h2⟩⟩

/-- **C127.** Of two options that exclude each other at least one has its default. -/
theorem C127_exclusive (c : Conv K) (P : List (Opt K)) (hP : OnePos P) (params : List String) (ns : String → Option (Val K))
    (h : getArgs c P params = .ok ns) (o o' : Opt K) (ho : o ∈ P) (ho' : o' ∈ P) (hh : o.help = false)
    (hh' : o'.help = false) (g : Nat) (hg : o.group = some g) (hg' : o'.group = some g) (hne : o.names ≠ o'.names)
    (hu : ∀ p ∈ P, p.dest = o.dest → p = o) (hu' : ∀ p ∈ P, p.dest = o'.dest → p = o') :
    ns o.dest = some o.default ∨ ns o'.dest = some o'.default := by
  obtain ⟨st, hi, hp, rfl⟩ := Inv.final hP h
  have hd : ∀ o ∈ P, o.help = false → (∀ p ∈ P, p.dest = o.dest → p = o) → defaults P o.dest = some o.default := by
    intro o ho hh hu
    obtain ⟨o', hf⟩ : ∃ o', ((P.filter fun o => !o.help).find? fun o' => o'.dest = o.dest) = some o' := by
      rw [← Option.isSome_iff_exists, List.find?_isSome]
      exact ⟨o, List.mem_filter.2 ⟨ho, by simp [hh]⟩, by simp⟩
    have hm := List.mem_filter.1 (List.mem_of_find?_eq_some hf)
    have hd : o'.dest = o.dest := by simpa using List.find?_some hf
    rw [defaults, hf, hu o' hm.1 hd]
    rfl
  rcases hi.grp o.dest with h1 | ⟨p, hp1, hp2, hp3⟩
  · left; rw [h1, hd o ho hh hu]
  · rcases hi.grp o'.dest with h2 | ⟨p', hp1', hp2', hp3'⟩
    · right; rw [h2, hd o' ho' hh' hu']
    · exfalso
      rw [hu p hp1 hp2] at hp3
      rw [hu' p' hp1' hp2'] at hp3'
      exact hne (hi.seen g _ _ (hp3 g hg) (hp3' g hg'))

/-- Option strings are all different, start with a dash, and do not look like negative numbers or `--`. -/
structure Proper (P : List (Opt K)) : Prop where
  nodup : (namesOf P).Nodup
  dash : ∀ n ∈ namesOf P, ∃ x r, n.toList = '-' :: x :: r ∧ x ≠ '.' ∧ x.isDigit = false ∧ n ≠ "--"
  one : OnePos P

theorem lookup_of_mem {P : List (Opt K)} (hn : (namesOf P).Nodup) {o : Opt K} (ho : o ∈ P) {n : String} (hm : n ∈ o.names) :
    lookup P n = some o := by
  unfold namesOf at hn
  induction P with
  | nil => cases ho
  | cons p P ih =>
    rw [List.flatMap_cons, List.nodup_append] at hn
    unfold lookup
    rw [List.find?_cons]
    by_cases hp : n ∈ p.names
    · rcases List.mem_cons.1 ho with rfl | ho'
      · simp [hp]
      · exact absurd rfl (hn.2.2 n hp n (List.mem_flatMap.2 ⟨o, ho', hm⟩))
    · rcases List.mem_cons.1 ho with rfl | ho'
      · exact absurd hm hp
      · have hc : p.names.contains n = false := by simpa using hp
        rw [hc]
        exact ih hn.2.1 ho'

theorem parse_name {P : List (Opt K)} (hP : Proper P) {o : Opt K} (ho : o ∈ P) {n : String} (hm : n ∈ o.names) :
    parseOptional P n = .ok (some (.opt o n none)) ∧ n ≠ "--" := by
  obtain ⟨x, r, h1, _, _, h2⟩ := hP.dash n (List.mem_flatMap.2 ⟨o, ho, hm⟩)
  refine ⟨?_, h2⟩
  unfold parseOptional
  rw [h1, lookup_of_mem hP.nodup ho hm]
  rfl

theorem cut_append {P : List (Opt K)} (hP : Proper P) {o : Opt K} (ho : o ∈ P) {n : String} (hm : n ∈ o.names)
    (a r : List String) (ha : "--" ∉ a) {l : Line K} (h : cut P (a ++ n :: r) = .ok l) :
    ∃ rl pre, cut P r = .ok rl ∧ l.groups = pre ++ (OTok.opt o n none, rl.lead) :: rl.groups := by
  induction a generalizing l with
  | nil =>
    obtain ⟨h1, h2⟩ := parse_name hP ho hm
    rw [List.nil_append, cut, if_neg h2, h1] at h
    obtain ⟨t, ht, h⟩ := bindOk h
    cases ht
    obtain ⟨rl, hr, h⟩ := bindOk h
    cases h
    exact ⟨rl, [], hr, rfl⟩
  | cons s a ih =>
    simp only [List.mem_cons, not_or] at ha
    rw [List.cons_append, cut, if_neg (fun e => ha.1 e.symm)] at h
    obtain ⟨t, ht, h⟩ := bindOk h
    obtain ⟨l', hl, h⟩ := bindOk h
    obtain ⟨rl, pre, h1, h2⟩ := ih ha.2 hl
    cases t with
    | none => cases h; exact ⟨rl, pre, h1, h2⟩
    | some t => cases h; exact ⟨rl, (t, l'.lead) :: pre, h1, by simp [h2]⟩

theorem doGroups_append (c : Conv K) (a b : List (OTok K × List String)) (st : St K) :
    doGroups c (a ++ b) st = (doGroups c a st).bind (doGroups c b) := by
  induction a generalizing st with
  | nil => rfl
  | cons g a ih =>
    simp only [List.cons_append, doGroups]
    cases doGroup c g st with
    | error e => rfl
    | ok s => exact ih s

theorem seen_take {c : Conv K} {o : Opt K} {vals : List String} {st st' : St K} (h : takeAction c o vals st = .ok st') :
    st'.seen = (match o.group with
        | none => st.seen
        | some g => (g, o.names) :: st.seen) ∧ excluded o st = false := by
  unfold takeAction at h
  obtain ⟨v, hv, h⟩ := bindOk h
  split at h
  · cases h
  · split at h
    · cases h
    · rename_i h1 h2
      cases h
      exact ⟨rfl, by simpa using h1⟩

theorem seen_take_mono {c : Conv K} {o : Opt K} {vals : List String} {st st' : St K} (h : takeAction c o vals st = .ok st') :
    ∀ x ∈ st.seen, x ∈ st'.seen := by
  rw [(seen_take h).1]
  intro x hx
  cases o.group with
  | none => exact hx
  | some g => exact List.mem_cons_of_mem _ hx

theorem seen_feed {c : Conv K} (l : List String) {st st' : St K} (h : feed c l st = .ok st') :
    ∀ x ∈ st.seen, x ∈ st'.seen := by
  induction l generalizing st with
  | nil => cases h; exact fun x hx => hx
  | cons s l ih =>
    unfold feed at h
    split at h
    · exact fun x hx => ih h x hx
    · obtain ⟨s1, h1, h⟩ := bindOk h
      exact fun x hx => ih h x (seen_take_mono h1 x hx)

theorem seen_group {c : Conv K} {g : OTok K × List String} {st st' : St K} (h : doGroup c g st = .ok st') :
    ∀ x ∈ st.seen, x ∈ st'.seen := by
  unfold doGroup at h
  split at h
  · exact fun x hx => seen_feed _ h x hx
  · split at h
    · cases h
    · obtain ⟨s1, h1, h⟩ := bindOk h
      exact fun x hx => seen_feed _ h x (seen_take_mono h1 x hx)
  · split at h
    · split at h
      · cases h
      · obtain ⟨s1, h1, h⟩ := bindOk h
        exact fun x hx => seen_feed _ h x (seen_take_mono h1 x hx)
    · split at h
      · obtain ⟨s1, h1, h⟩ := bindOk h
        exact fun x hx => seen_feed _ h x (seen_take_mono h1 x hx)
      · cases h

theorem seen_groups {c : Conv K} (gs : List (OTok K × List String)) {st st' : St K} (h : doGroups c gs st = .ok st') :
    ∀ x ∈ st.seen, x ∈ st'.seen := by
  induction gs generalizing st with
  | nil => cases h; exact fun x hx => hx
  | cons g gs ih =>
    unfold doGroups at h
    obtain ⟨s1, h1, h⟩ := bindOk h
    exact fun x hx => ih h x (seen_group h1 x hx)

/-- **C127.** A command line with two options that exclude each other is refused, whatever else is on it. -/
theorem C127_exclusive_refused (c : Conv K) (P : List (Opt K)) (hP : Proper P) (o o' : Opt K) (ho : o ∈ P) (ho' : o' ∈ P)
    (g : Nat) (hg : o.group = some g) (hg' : o'.group = some g) (hne : o.names ≠ o'.names) (n n' : String)
    (hn : n ∈ o.names) (hn' : n' ∈ o'.names) (a b e : List String) (ha : "--" ∉ a) (hb : "--" ∉ b) :
    ∃ s, getArgs c P (a ++ n :: (b ++ n' :: e)) = .error s := by
  cases h : getArgs c P (a ++ n :: (b ++ n' :: e)) with
  | error s => exact ⟨s, rfl⟩
  | ok ns =>
    exfalso
    unfold getArgs at h
    obtain ⟨l, hl, h⟩ := bindOk h
    obtain ⟨s1, h1, h⟩ := bindOk h
    obtain ⟨s2, h2, h⟩ := bindOk h
    obtain ⟨rl, pre, hr, hgr⟩ := cut_append hP ho hn a _ ha hl
    obtain ⟨rl', pre', hr', hgr'⟩ := cut_append hP ho' hn' b _ hb hr
    rw [hgr, doGroups_append] at h2
    obtain ⟨s3, h3, h2⟩ := bindOk h2
    unfold doGroups at h2
    obtain ⟨s4, h4, h2⟩ := bindOk h2
    have hs4 : (g, o.names) ∈ s4.seen := by
      unfold doGroup at h4
      dsimp only at h4
      split at h4
      · cases h4
      · obtain ⟨s5, h5, h4⟩ := bindOk h4
        refine seen_feed _ h4 _ ?_
        rw [(seen_take h5).1, hg]
        exact List.mem_cons_self
    rw [hgr', doGroups_append] at h2
    obtain ⟨s6, h6, h2⟩ := bindOk h2
    unfold doGroups at h2
    obtain ⟨s7, h7, h2⟩ := bindOk h2
    have hs6 := seen_groups _ h6 _ hs4
    unfold doGroup at h7
    dsimp only at h7
    split at h7
    · cases h7
    · obtain ⟨s8, h8, h7⟩ := bindOk h7
      exact hne (not_excluded (seen_take h8).2 hg' hs6)

/-! ## Setting up the parsers -/

theorem addAll_ok (P os : List (Opt K)) (h : (namesOf (P ++ os)).Nodup) : os.foldlM addOpt P = .ok (P ++ os) := by
  induction os generalizing P with
  | nil => simp [pure, Except.pure]
  | cons o os ih =>
    have e : P ++ o :: os = (P ++ [o]) ++ os := by simp
    have h1 : addOpt P o = .ok (P ++ [o]) := by
      unfold addOpt
      rw [if_neg]
      simp only [List.any_eq_true, List.contains_eq_mem, decide_eq_true_eq, not_exists, not_and]
      intro x hx hx'
      unfold namesOf at h hx'
      rw [List.flatMap_append, List.flatMap_cons, List.nodup_append] at h
      exact h.2.2 x hx' x (List.mem_append_left _ hx) rfl
    rw [List.foldlM_cons, h1, e]
    exact ih (P ++ [o]) (by rw [← e]; exact h)

theorem addAll_inv (P os Q : List (Opt K)) (h : os.foldlM addOpt P = .ok Q) :
    ∀ a o b, os = a ++ o :: b → ∀ n ∈ o.names, n ∉ namesOf (P ++ a) := by
  induction os generalizing P with
  | nil => intro a o b e; simp at e
  | cons p os ih =>
    rw [List.foldlM_cons] at h
    obtain ⟨P', h1, h⟩ := bindOk h
    have hn : ¬ (p.names.any fun s => (namesOf P).contains s) = true := by
      intro hc; rw [addOpt, if_pos hc] at h1; cases h1
    rw [addOpt, if_neg hn] at h1
    cases h1
    intro a o b e n hm
    cases a with
    | nil =>
      cases e
      intro hx
      apply hn
      simp only [List.any_eq_true, List.contains_eq_mem, decide_eq_true_eq]
      exact ⟨n, hm, by simpa using hx⟩
    | cons q a =>
      simp only [List.cons_append, List.cons.injEq] at e
      obtain ⟨rfl, e⟩ := e
      have := ih (P ++ [p]) h a o b e n hm
      simpa using this

variable [Field K]

theorem names_whenever (b : Bool) (l : List (Opt K)) : (namesOf (whenever b l)).Sublist (namesOf l) := by
  unfold whenever
  split
  · exact List.Sublist.refl _
  · exact List.nil_sublist _

theorem names_append (a b : List (Opt K)) : namesOf (a ++ b) = namesOf a ++ namesOf b := by simp [namesOf]

/-- Option strings up to `--scale`. -/
def firstNames : List String := ["-h", "--help", "--asr", "--dipole-parameter", "--use-c", "--disable-c", "--n-threads",
  "--pdos", "--weighting", "-w", "--temperature", "--grid", "--grid-spacing", "--scale"]

/-- Option strings of `'powder'`. -/
def powderNames : List String := ["--npts", "-n", "--npts-density", "--npts-min", "--npts-max", "--sampling", "--jitter"]

/-- Option strings of the other features. -/
def otherNames : List String := ["--save-json", "-s", "--save-to", "--title", "--x-label", "--xlabel", "--y-label",
  "--ylabel", "--style", "--no-base-style", "--font", "--font-size", "--fontsize", "--fig-size", "--figsize",
  "--fig-size-unit", "--figsize-unit", "--line-width", "--linewidth", "--e-min", "--e-max", "--energy-unit", "-u", "--ebins",
  "--adaptive", "--adaptive-method", "--adaptive-error", "--adaptive-scale", "--adaptive-fit", "--instrument-broadening",
  "--energy-broadening", "--eb", "--shape", "--length-unit", "--q-spacing", "--q-broadening", "--qb", "--v-min", "--vmin",
  "--v-max", "--vmax", "--c-map", "--cmap", "--btol", "--use-brille", "--brille-grid-type", "--brille-npts",
  "--brille-npts-density"]

/-- Option strings of `'dipole-parameter-optimisation'`. -/
def dipoleNames : List String := ["-n", "--dipole-parameter-min", "--min", "--dipole-parameter-max", "--max",
  "--dipole-parameter-step", "--step"]

theorem names_first (F : List String) :
    (namesOf (K := K) (helpOpt :: (fileOpts F ++ fcOpts F ++ pdosOpts F ++ weightingOpts F ++ gridOpts F))).Sublist
      firstNames := by
  have h1 : (namesOf (K := K) (fileOpts F)).Sublist [] := names_whenever _ _
  have h2 : (namesOf (K := K) (fcOpts F)).Sublist ["--asr", "--dipole-parameter", "--use-c", "--disable-c", "--n-threads"] := by
    refine (names_whenever _ _).trans ?_
    rw [names_append, names_append]
    exact ((List.Sublist.refl _).append (names_whenever _ _)).append (List.Sublist.refl _)
  have h3 : (namesOf (K := K) (pdosOpts F)).Sublist ["--pdos"] := names_whenever _ _
  have h4 : (namesOf (K := K) (weightingOpts F)).Sublist ["--weighting", "-w", "--temperature"] := by
    unfold weightingOpts
    rw [names_append]
    exact (names_whenever _ _).append (names_whenever _ _)
  have h5 : (namesOf (K := K) (gridOpts F)).Sublist ["--grid", "--grid-spacing", "--scale"] := by
    unfold gridOpts
    rw [names_append]
    exact (names_whenever _ _).append (names_whenever _ _)
  have e : ∀ l : List (Opt K), namesOf (helpOpt :: l) = ["-h", "--help"] ++ namesOf l := fun l => rfl
  rw [e, names_append, names_append, names_append, names_append]
  exact (List.Sublist.refl _).append ((((h1.append h2).append h3).append h4).append h5)

theorem names_other (F : List String) :
    (namesOf (K := K) (plottingOpts F ++ energyOpts F ++ broadeningOpts F ++ qOpts F ++ mapOpts F ++ brilleOpts F)).Sublist
      otherNames := by
  have h1 : (namesOf (K := K) (plottingOpts F)).Sublist (otherNames.take 19) := by
    unfold plottingOpts
    rw [names_append]
    exact (names_whenever _ _).append (names_whenever _ _)
  have h2 : (namesOf (K := K) (energyOpts F)).Sublist ((otherNames.drop 19).take 4) := names_whenever _ _
  have h3 : (namesOf (K := K) (broadeningOpts F)).Sublist ((otherNames.drop 23).take 10) := by
    refine (names_whenever _ _).trans ?_
    rw [names_append, names_append]
    exact ((List.Sublist.refl _).append (names_whenever _ _)).append (List.Sublist.refl _)
  have h4 : (namesOf (K := K) (qOpts F)).Sublist ((otherNames.drop 33).take 4) := by
    unfold qOpts
    rw [names_append, names_append]
    exact ((names_whenever _ _).append (names_whenever _ _)).append (names_whenever _ _)
  have h5 : (namesOf (K := K) (mapOpts F)).Sublist ((otherNames.drop 37).take 7) := by
    unfold mapOpts
    rw [names_append]
    exact (names_whenever _ _).append (names_whenever _ _)
  have h6 : (namesOf (K := K) (brilleOpts F)).Sublist ((otherNames.drop 44).take 4) := names_whenever _ _
  rw [names_append, names_append, names_append, names_append, names_append]
  exact ((((h1.append h2).append h3).append h4).append h5).append h6

theorem names_all (F : List String) :
    (namesOf (K := K) (helpOpt :: cliOpts F)).Sublist
      (firstNames ++ (if has F "powder" then powderNames else []) ++ otherNames ++
        (if has F "dipole-parameter-optimisation" then dipoleNames else [])) := by
  have e : (helpOpt (K := K) :: cliOpts F) = (helpOpt :: (fileOpts F ++ fcOpts F ++ pdosOpts F ++ weightingOpts F ++ gridOpts F))
      ++ powderOpts F ++ (plottingOpts F ++ energyOpts F ++ broadeningOpts F ++ qOpts F ++ mapOpts F ++ brilleOpts F) ++
      dipoleOpts F := by
    unfold cliOpts
    simp only [List.cons_append, List.append_assoc]
  have hp : (namesOf (K := K) (powderOpts F)).Sublist (if has F "powder" then powderNames else []) := by
    unfold powderOpts whenever
    split
    · exact List.Sublist.refl _
    · exact List.Sublist.refl _
  have hd : (namesOf (K := K) (dipoleOpts F)).Sublist (if has F "dipole-parameter-optimisation" then dipoleNames else []) := by
    unfold dipoleOpts whenever
    split
    · exact List.Sublist.refl _
    · exact List.Sublist.refl _
  rw [e, names_append, names_append, names_append]
  exact (((names_first F).append hp).append (names_other F)).append hd

theorem names_ok : (firstNames ++ powderNames ++ otherNames).Nodup ∧ (firstNames ++ otherNames ++ dipoleNames).Nodup := by
  decide +kernel

theorem cli_nodup (F : List String) (h : ¬(has F "powder" = true ∧ has F "dipole-parameter-optimisation" = true)) :
    (namesOf (K := K) (helpOpt :: cliOpts F)).Nodup := by
  refine (names_all F).nodup ?_
  by_cases h1 : has F "powder" = true
  · have h2 : has F "dipole-parameter-optimisation" = false := by simpa using fun h2 => h ⟨h1, h2⟩
    simpa [h1, h2] using names_ok.1
  · have h1 : has F "powder" = false := by simpa using h1
    rw [h1]
    by_cases h2 : has F "dipole-parameter-optimisation" = true
    · simpa [h2] using names_ok.2
    · have h2 : has F "dipole-parameter-optimisation" = false := by simpa using h2
      rw [h2]
      refine List.Sublist.nodup ?_ names_ok.2
      simp

/-- **C127.** For which sets of features a parser can be set up: not for tools that read modes only, and not for the powder
options together with those of the dipole parameter (both have `-n`). -/
theorem C127_build (F : List String) :
    (∃ P, getCliParser (K := K) F = .ok P) ↔ ¬("read-modes" ∈ F ∧ "read-fc" ∉ F) ∧
      ¬("powder" ∈ F ∧ "dipole-parameter-optimisation" ∈ F) := by
  have hh : ∀ s, has F s = true ↔ s ∈ F := fun s => by simp [has]
  have hh' : ∀ s, has F s = false ↔ s ∉ F := fun s => by simp [has]
  unfold getCliParser
  simp only [Bool.and_eq_true, Bool.not_eq_true', hh, hh']
  by_cases h1 : "read-modes" ∈ F ∧ "read-fc" ∉ F
  · simp [h1]
  · rw [if_neg h1]
    simp only [h1, not_false_eq_true, true_and]
    constructor
    · rintro ⟨P, hP⟩ ⟨h2, h3⟩
      have := addAll_inv _ _ _ hP (fileOpts F ++ fcOpts F ++ pdosOpts F ++ weightingOpts F ++ gridOpts F ++ powderOpts F ++
        plottingOpts F ++ energyOpts F ++ broadeningOpts F ++ qOpts F ++ mapOpts F ++ brilleOpts F)
        { names := ["-n"], dest := "n", typ := .int, default := ofInt 500 } ((dipoleOpts (K := K) F).drop 1)
        (by
          have : dipoleOpts (K := K) F = { names := ["-n"], dest := "n", typ := .int, default := ofInt 500 } ::
              (dipoleOpts (K := K) F).drop 1 := by
            unfold dipoleOpts whenever
            rw [if_pos ((hh _).2 h3)]
            rfl
          rw [← this]
          rfl) "-n" (List.mem_singleton.2 rfl)
      apply this
      have hpw : "-n" ∈ namesOf (powderOpts (K := K) F) := by
        unfold powderOpts whenever
        rw [if_pos ((hh _).2 h2)]
        exact List.mem_cons_of_mem _ List.mem_cons_self
      simp only [names_append, List.mem_append]
      simp only [hpw, true_or, or_true]
    · intro h2
      exact ⟨_, addAll_ok [helpOpt] (cliOpts F) (cli_nodup F (by rwa [hh, hh]))⟩

end Euphonic.Args
