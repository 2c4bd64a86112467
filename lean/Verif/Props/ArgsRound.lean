import Verif.Props.ArgsTools
import Mathlib.Data.List.Chain

/-!
# What a command line says is what the tool gets (C128)
-/

set_option autoImplicit false
set_option linter.unusedSectionVars false

namespace Euphonic.Args

variable {K : Type}

/-! ## Specification -/

/-- A part of a command line: an argument of the parser, the option string it is called by (not for a positional argument),
the strings after it, and the value that they stand for. -/
structure Piece (K : Type) where
  o : Opt K
  name : String := ""
  vals : List String
  val : Val K

/-- Is it a positional argument? -/
abbrev Piece.pos (p : Piece K) : Prop := p.o.names = []

/-- The strings on the command line. -/
def Piece.render (p : Piece K) : List String := if p.pos then p.vals else p.name :: p.vals

/-- Digits, or digits with a point before the last ones. -/
def NumberChars (r : List Char) : Prop :=
  (r ≠ [] ∧ ∀ x ∈ r, x.isDigit = true) ∨
    ∃ a b, r = a ++ '.' :: b ∧ b ≠ [] ∧ (∀ x ∈ a, x.isDigit = true) ∧ ∀ x ∈ b, x.isDigit = true

/-- A string that cannot be taken for an option: it does not start with a dash, or it is a negative number, or just a
dash. -/
def Plain (s : String) : Prop :=
  (∀ r, s.toList ≠ '-' :: r) ∨ (∃ r, s.toList = '-' :: r ∧ NumberChars r) ∨ s.toList = ['-']

/-- The part stands for its value. -/
structure Piece.Ok (c : Conv K) (P : List (Opt K)) (p : Piece K) : Prop where
  mem : p.o ∈ P
  help : p.o.help = false
  name : ¬p.pos → p.name ∈ p.o.names
  means : Means c p.o p.vals p.val

/-- A positional argument after the part cannot be taken for a value of the part. -/
def Sated (p : Piece K) : Prop :=
  p.pos ∨ p.o.nargs = .one ∨ (∃ k, p.o.nargs = .num k) ∨ p.o.nargs = .flag ∨ (p.o.nargs = .opt ∧ p.vals.length = 1)

/-- Parts that do not exclude each other. -/
def Together (p q : Piece K) : Prop := ∀ g, p.o.group = some g → q.o.group = some g → p.o.names = q.o.names

/-- The command line: parts, and then positional arguments after `--`. -/
def commandLine (ps tail : List (Piece K)) : List String :=
  ps.flatMap Piece.render ++ (if tail = [] then [] else "--" :: tail.flatMap Piece.vals)

/-! ## Lemmas -/

theorem dropWhile_all {α : Type} (p : α → Bool) (a : List α) (b : List α) (h : ∀ x ∈ a, p x = true) :
    (a ++ b).dropWhile p = b.dropWhile p := by
  induction a with
  | nil => rfl
  | cons x a ih =>
    rw [List.cons_append, List.dropWhile_cons, if_pos (h x List.mem_cons_self)]
    exact ih fun y hy => h y (List.mem_cons_of_mem _ hy)

theorem isNumber_of {r : List Char} (h : NumberChars r) : isNumber r = true := by
  unfold isNumber
  rcases h with ⟨h1, h2⟩ | ⟨a, b, rfl, h1, h2, h3⟩
  · have e := dropWhile_all Char.isDigit r [] h2
    rw [List.append_nil] at e
    rw [e]
    simp [h1]
  · rw [dropWhile_all Char.isDigit a ('.' :: b) h2]
    have e : ('.' :: b).dropWhile Char.isDigit = '.' :: b := rfl
    rw [e]
    simp [h1]
    exact h3

theorem numberChars_head {r : List Char} (h : NumberChars r) : ∃ x t, r = x :: t ∧ (x = '.' ∨ x.isDigit = true) := by
  rcases h with ⟨h1, h2⟩ | ⟨a, b, rfl, h1, h2, h3⟩
  · cases r with
    | nil => exact absurd rfl h1
    | cons x t => exact ⟨x, t, rfl, Or.inr (h2 x List.mem_cons_self)⟩
  · cases a with
    | nil => exact ⟨'.', b, rfl, Or.inl rfl⟩
    | cons x t => exact ⟨x, _, rfl, Or.inr (h2 x List.mem_cons_self)⟩

theorem numberChars_eq {r : List Char} (h : NumberChars r) : '=' ∉ r := by
  have h0 : Char.isDigit '=' = false := rfl
  rcases h with ⟨h1, h2⟩ | ⟨a, b, rfl, h1, h2, h3⟩
  · intro hm
    rw [h2 _ hm] at h0
    cases h0
  · intro hm
    simp only [List.mem_append, List.mem_cons] at hm
    rcases hm with hm | hm | hm
    · rw [h2 _ hm] at h0; cases h0
    · cases hm
    · rw [h3 _ hm] at h0; cases h0

theorem mem_lookup {P : List (Opt K)} {s : String} {o : Opt K} (h : lookup P s = some o) : s ∈ namesOf P := by
  have := List.find?_some h
  exact List.mem_flatMap.2 ⟨o, lookup_mem h, by simpa using this⟩

theorem digit_parse {P : List (Opt K)} (hP : Proper P) {s : String} {x : Char} {t : List Char} (hr : s.toList = '-' :: x :: t)
    (hx : x = '.' ∨ x.isDigit = true) (heq : '=' ∉ x :: t) :
    parseOptional P s = .ok (if isNumber (x :: t) then none else if (x :: t).contains ' ' then none else some .unknown) ∧
      s ≠ "--" := by
  have hname : ∀ n ∈ namesOf P, ∀ y z, n.toList = '-' :: y :: z → y ≠ x := by
    intro n hm y z hy
    obtain ⟨x', r', h1, h2, h3, _⟩ := hP.dash n hm
    rw [h1] at hy
    simp only [List.cons.injEq, true_and] at hy
    rw [← hy.1]
    rintro rfl
    rcases hx with hx | hx
    · exact h2 hx
    · rw [h3] at hx; cases hx
  have hdash : x ≠ '-' := by
    rintro rfl
    rcases hx with hx | hx
    · cases hx
    · cases hx
  have hl : lookup P s = none := by
    cases hl : lookup P s with
    | none => rfl
    | some o => exact absurd rfl (hname s (mem_lookup hl) x t hr)
  have hpe : partitionEq s = none := by
    unfold partitionEq
    have : s.toList.dropWhile (· ≠ '=') = [] := by
      have e := dropWhile_all (fun y : Char => decide (y ≠ '=')) s.toList []
      rw [List.append_nil] at e
      refine e ?_
      rw [hr]
      intro y hy
      simp only [ne_eq, decide_eq_true_eq]
      rintro rfl
      rcases List.mem_cons.1 hy with hy | hy
      · cases hy
      · exact heq hy
    rw [this]
  have hot : optionTuples P s = [] := by
    unfold optionTuples
    have h1 : starts "--" s = false := by
      unfold starts
      rw [hr]
      show List.isPrefixOf ['-', '-'] _ = false
      simp [List.isPrefixOf, hdash.symm]
    dsimp only
    rw [h1]
    simp only [Bool.false_eq_true, if_false, List.filterMap_eq_nil_iff]
    rintro ⟨n, o⟩ hm
    simp only [List.mem_flatMap, List.mem_map] at hm
    obtain ⟨o', ho', n', hn', e⟩ := hm
    cases e
    have hmem : n ∈ namesOf P := List.mem_flatMap.2 ⟨o, ho', hn'⟩
    obtain ⟨x', r', k1, _, _, _⟩ := hP.dash n hmem
    have hne := hname n hmem x' r' k1
    have k2 : ¬ n.toList = s.toList.take 2 := by
      rw [k1, hr]
      intro e
      simp only [List.take_succ_cons, List.cons.injEq, true_and] at e
      exact hne e.1
    have k3 : starts s n = false := by
      unfold starts
      rw [k1, hr]
      simp [List.isPrefixOf, hne.symm]
    rw [if_neg k2, k3]
    rfl
  refine ⟨?_, ?_⟩
  · unfold parseOptional
    rw [hr, hl, hpe, hot]
    simp only [Option.bind_none]
    rw [if_neg (by simp)]
    split
    · rfl
    · split <;> rfl
  · rintro rfl
    have : "--".toList = ['-', '-'] := rfl
    rw [this] at hr
    simp only [List.cons.injEq, true_and] at hr
    exact hdash hr.1.symm

theorem plain_parse {P : List (Opt K)} (hP : Proper P) {s : String} (hs : Plain s) :
    parseOptional P s = .ok none ∧ s ≠ "--" := by
  rcases hs with hs | ⟨r, hr, hn⟩ | hs
  · refine ⟨?_, fun e => hs ['-'] (by rw [e]; rfl)⟩
    unfold parseOptional
    split
    · rename_i r hr
      exact absurd hr (hs r)
    · rfl
  · obtain ⟨x, t, rfl, hx⟩ := numberChars_head hn
    have := digit_parse hP hr hx (numberChars_eq hn)
    rw [isNumber_of hn] at this
    exact this
  · refine ⟨?_, fun e => by rw [e] at hs; cases hs⟩
    have hl : lookup P s = none := by
      cases hl : lookup P s with
      | none => rfl
      | some o =>
        obtain ⟨x', r', k1, _⟩ := hP.dash s (mem_lookup hl)
        rw [hs] at k1
        cases k1
    unfold parseOptional
    rw [hs, hl]
    rfl

theorem cut_plain {P : List (Opt K)} (hP : Proper P) (vals l : List String) (hv : ∀ s ∈ vals, Plain s) (r : Line K)
    (hr : cut P l = .ok r) : cut P (vals ++ l) = .ok ⟨vals ++ r.lead, r.groups, r.tail⟩ := by
  induction vals with
  | nil => exact hr
  | cons s vals ih =>
    obtain ⟨h1, h2⟩ := plain_parse hP (hv s List.mem_cons_self)
    rw [List.cons_append, cut, if_neg h2, h1, ih fun s hs => hv s (List.mem_cons_of_mem _ hs)]
    rfl

/-- The command line, cut. -/
def lineOf (t : Option (List String)) : List (Piece K) → Line K
  | [] => ⟨[], [], t⟩
  | p :: ps =>
    let r := lineOf t ps
    if p.pos then ⟨p.vals ++ r.lead, r.groups, r.tail⟩
    else ⟨[], (.opt p.o p.name none, p.vals ++ r.lead) :: r.groups, r.tail⟩

theorem lineOf_tail (t : Option (List String)) (ps : List (Piece K)) : (lineOf t ps).tail = t := by
  induction ps with
  | nil => rfl
  | cons p ps ih =>
    unfold lineOf
    dsimp only
    split <;> exact ih

theorem cut_pieces {c : Conv K} {P : List (Opt K)} (hP : Proper P) (ps : List (Piece K)) (hps : ∀ p ∈ ps, p.Ok c P)
    (hpl : ∀ p ∈ ps, ∀ s ∈ p.vals, Plain s) (t : Option (List String)) :
    cut P (ps.flatMap Piece.render ++ (match t with
      | none => []
      | some l => "--" :: l)) = .ok (lineOf t ps) := by
  induction ps with
  | nil =>
    cases t with
    | none => rfl
    | some l =>
      simp only [List.flatMap_nil, List.nil_append, cut, if_true]
      rfl
  | cons p ps ih =>
    have ih := ih (fun q hq => hps q (List.mem_cons_of_mem _ hq)) fun q hq => hpl q (List.mem_cons_of_mem _ hq)
    have hv := cut_plain hP p.vals _ (hpl p List.mem_cons_self) _ ih
    rw [List.flatMap_cons, List.append_assoc]
    have hr : p.render = if p.pos then p.vals else p.name :: p.vals := rfl
    rw [hr]
    unfold lineOf
    by_cases hp : p.pos
    · rw [if_pos hp, if_pos hp]
      exact hv
    · rw [if_neg hp, if_neg hp]
      have ho := hps p List.mem_cons_self
      obtain ⟨h1, h2⟩ := parse_name hP ho.mem (ho.name hp)
      rw [List.cons_append, cut, if_neg h2, h1, hv]
      rfl

/-- The state after a part of the command line. -/
def after (st : St K) (p : Piece K) : St K :=
  { ns := fun d => if d = p.o.dest then some p.val else st.ns d
    seen := match p.o.group with
      | none => st.seen
      | some g => (g, p.o.names) :: st.seen
    positionals := if p.pos then st.positionals.tail else st.positionals
    extras := st.extras }

theorem take_piece {c : Conv K} {P : List (Opt K)} {p : Piece K} (hp : p.Ok c P) (st : St K)
    (hs : ∀ x ∈ st.seen, p.o.group = some x.1 → p.o.names = x.2) :
    takeAction c p.o p.vals st = .ok { after st p with positionals := st.positionals } := by
  unfold takeAction
  rw [(getValues_iff c p.o p.vals p.val hp.means.1).2 hp.means]
  have hex : excluded p.o st = false := by
    unfold excluded
    cases hg : p.o.group with
    | none => rfl
    | some g =>
      simp only [List.any_eq_false, Bool.and_eq_true, decide_eq_true_eq, not_and, not_not]
      rintro x hx rfl
      exact (hs x hx hg).symm
  simp only [Except.bind, hex, hp.help, Bool.false_eq_true, if_false]
  rfl

theorem one_val {c : Conv K} {p : Piece K} (hn : p.o.nargs = .one) (hm : Means c p.o p.vals p.val) : ∃ s, p.vals = [s] := by
  have := hm.2
  rw [hn] at this
  obtain ⟨s, x, h, _⟩ := this
  exact ⟨s, h⟩

theorem count_sated {c : Conv K} {p : Piece K} (hm : Means c p.o p.vals p.val) (l : List String)
    (h : l = [] ∨ (Sated p ∧ ¬p.pos)) : count p.o.nargs (p.vals ++ l).length = some p.vals.length := by
  have hf := hm.1
  rw [List.length_append]
  rcases h with rfl | ⟨h, hp⟩
  · rw [List.length_nil, Nat.add_zero]
    unfold count
    cases hn : p.o.nargs <;> rw [hn] at hf <;> simp only [Fits] at hf <;> dsimp only
    · rw [if_pos (by omega), hf]
    · rw [if_pos (by omega), hf]
    · congr 1; omega
    · rw [if_pos hf]
    · rw [hf]
  · rcases h with h | h | ⟨k, h⟩ | h | ⟨h, h'⟩
    · exact absurd h hp
    · rw [h] at hf ⊢
      simp only [Fits] at hf
      simp only [count, Option.ite_none_right_eq_some, Option.some.injEq]
      omega
    · rw [h] at hf ⊢
      simp only [Fits] at hf
      simp only [count, Option.ite_none_right_eq_some, Option.some.injEq]
      omega
    · rw [h] at hf ⊢
      simp only [Fits] at hf
      simp only [count, Option.some.injEq]
      omega
    · rw [h]
      simp only [count, Option.some.injEq]
      omega

theorem lead_nil (t : Option (List String)) (q : Piece K) (qs : List (Piece K)) (h : ¬q.pos) :
    (lineOf t (q :: qs)).lead = [] := by
  unfold lineOf
  dsimp only
  rw [if_neg h]

theorem feed_one {c : Conv K} {P : List (Opt K)} {p : Piece K} (hp : p.Ok c P) (hn : p.o.nargs = .one) (hpos : p.pos)
    (l : List String) (st : St K) (ps : List (Opt K)) (hst : st.positionals = p.o :: ps)
    (hs : ∀ x ∈ st.seen, p.o.group = some x.1 → p.o.names = x.2) :
    feed c (p.vals ++ l) st = feed c l (after st p) := by
  obtain ⟨s, hv⟩ := one_val hn hp.means
  have ht := take_piece hp { st with positionals := ps } hs
  rw [hv] at ht ⊢
  rw [List.singleton_append, feed]
  rw [hst]
  dsimp only
  rw [ht]
  show feed c l _ = _
  congr 1
  unfold after
  rw [if_pos hpos, if_pos hpos, hst]
  rfl

/-- Running the parser on a command line made of parts. -/
theorem run_pieces {c : Conv K} {P : List (Opt K)} (hone : OnePos P) (ps : List (Piece K)) (hps : ∀ p ∈ ps, p.Ok c P)
    (t : Option (List String)) (hsafe : ps.IsChain fun p q => q.pos → Sated p) (htog : ps.Pairwise Together) (st : St K)
    (rest : List (Opt K)) (hpos : st.positionals = (ps.filter fun p => p.pos).map Piece.o ++ rest)
    (hseen : ∀ x ∈ st.seen, ∀ p ∈ ps, p.o.group = some x.1 → p.o.names = x.2) :
    (feed c (lineOf t ps).lead st).bind (doGroups c (lineOf t ps).groups) = .ok (ps.foldl after st) ∧
      (ps.foldl after st).positionals = rest ∧ (ps.foldl after st).extras = st.extras := by
  induction ps generalizing st with
  | nil =>
    refine ⟨rfl, ?_, rfl⟩
    simpa using hpos
  | cons p ps ih =>
    have hp := hps p List.mem_cons_self
    have hps' : ∀ q ∈ ps, q.Ok c P := fun q hq => hps q (List.mem_cons_of_mem _ hq)
    have hsafe' : ps.IsChain fun p q => q.pos → Sated p := by
      cases ps with
      | nil => exact List.IsChain.nil
      | cons q ps => exact (List.isChain_cons_cons.1 hsafe).2
    have htog' := (List.pairwise_cons.1 htog).2
    have hs1 : ∀ x ∈ st.seen, p.o.group = some x.1 → p.o.names = x.2 := fun x hx => hseen x hx p List.mem_cons_self
    have hseen' : ∀ x ∈ (after st p).seen, ∀ q ∈ ps, q.o.group = some x.1 → q.o.names = x.2 := by
      intro x hx q hq hg
      unfold after at hx
      dsimp only at hx
      cases hg' : p.o.group with
      | none => rw [hg'] at hx; exact hseen x hx q (List.mem_cons_of_mem _ hq) hg
      | some g =>
        rw [hg'] at hx
        rcases List.mem_cons.1 hx with rfl | hx
        · exact ((List.pairwise_cons.1 htog).1 q hq g hg' hg).symm
        · exact hseen x hx q (List.mem_cons_of_mem _ hq) hg
    by_cases hpp : p.pos
    · have hst : st.positionals = p.o :: ((ps.filter fun p => p.pos).map Piece.o ++ rest) := by
        rw [hpos, List.filter_cons, if_pos (by simpa using hpp)]
        rfl
      have h1 := ih hps' hsafe' htog' (after st p) (by unfold after; rw [if_pos hpp, hst]; rfl) hseen'
      rw [List.foldl_cons]
      refine ⟨?_, h1.2⟩
      have e : lineOf t (p :: ps) = ⟨p.vals ++ (lineOf t ps).lead, (lineOf t ps).groups, (lineOf t ps).tail⟩ := by
        rw [lineOf, if_pos hpp]
      rw [e]
      dsimp only
      rw [feed_one hp (hone p.o hp.mem hpp) hpp _ st _ hst hs1]
      exact h1.1
    · have hst : (after st p).positionals = (ps.filter fun p => p.pos).map Piece.o ++ rest := by
        unfold after
        rw [if_neg hpp, hpos, List.filter_cons, if_neg (by simpa using hpp)]
      have h1 := ih hps' hsafe' htog' (after st p) hst hseen'
      rw [List.foldl_cons]
      refine ⟨?_, h1.2⟩
      have e : lineOf t (p :: ps) =
          ⟨[], (.opt p.o p.name none, p.vals ++ (lineOf t ps).lead) :: (lineOf t ps).groups, (lineOf t ps).tail⟩ := by
        rw [lineOf, if_neg hpp]
      have hcount : count p.o.nargs (p.vals ++ (lineOf t ps).lead).length = some p.vals.length := by
        apply count_sated hp.means
        cases ps with
        | nil => exact Or.inl rfl
        | cons q ps =>
          by_cases hq : q.pos
          · exact Or.inr ⟨(List.isChain_cons_cons.1 hsafe).1 hq, hpp⟩
          · exact Or.inl (lead_nil t q ps hq)
      rw [e]
      show doGroups c _ st = _
      rw [doGroups]
      have hd : doGroup c (.opt p.o p.name none, p.vals ++ (lineOf t ps).lead) st =
          feed c (lineOf t ps).lead (after st p) := by
        unfold doGroup
        dsimp only
        rw [hcount]
        dsimp only
        rw [List.take_left, List.drop_left, take_piece hp st hs1]
        show feed c _ _ = _
        congr 1
        unfold after
        rw [if_neg hpp]
      rw [hd]
      exact h1.1

/-- Positional arguments after `--`. -/
theorem run_tail {c : Conv K} {P : List (Opt K)} (hone : OnePos P) (ps : List (Piece K)) (hps : ∀ p ∈ ps, p.Ok c P)
    (hall : ∀ p ∈ ps, p.pos) (htog : ps.Pairwise Together) (st : St K) (hpos : st.positionals = ps.map Piece.o)
    (hseen : ∀ x ∈ st.seen, ∀ p ∈ ps, p.o.group = some x.1 → p.o.names = x.2) :
    feed c (ps.flatMap Piece.vals) st = .ok (ps.foldl after st) ∧ (ps.foldl after st).positionals = [] ∧
      (ps.foldl after st).extras = st.extras := by
  induction ps generalizing st with
  | nil => exact ⟨rfl, hpos, rfl⟩
  | cons p ps ih =>
    have hp := hps p List.mem_cons_self
    have hpp := hall p List.mem_cons_self
    have hs1 : ∀ x ∈ st.seen, p.o.group = some x.1 → p.o.names = x.2 := fun x hx => hseen x hx p List.mem_cons_self
    have hseen' : ∀ x ∈ (after st p).seen, ∀ q ∈ ps, q.o.group = some x.1 → q.o.names = x.2 := by
      intro x hx q hq hg
      unfold after at hx
      dsimp only at hx
      cases hg' : p.o.group with
      | none => rw [hg'] at hx; exact hseen x hx q (List.mem_cons_of_mem _ hq) hg
      | some g =>
        rw [hg'] at hx
        rcases List.mem_cons.1 hx with rfl | hx
        · exact ((List.pairwise_cons.1 htog).1 q hq g hg' hg).symm
        · exact hseen x hx q (List.mem_cons_of_mem _ hq) hg
    have h1 := ih (fun q hq => hps q (List.mem_cons_of_mem _ hq)) (fun q hq => hall q (List.mem_cons_of_mem _ hq))
      (List.pairwise_cons.1 htog).2 (after st p) (by unfold after; rw [if_pos hpp, hpos]; rfl) hseen'
    rw [List.foldl_cons, List.flatMap_cons, feed_one hp (hone p.o hp.mem hpp) hpp _ st _ hpos hs1]
    exact h1

theorem seen_after (ps : List (Piece K)) (st : St K) (x : Nat × List String) (hx : x ∈ (ps.foldl after st).seen) :
    x ∈ st.seen ∨ ∃ p ∈ ps, p.o.group = some x.1 ∧ p.o.names = x.2 := by
  induction ps generalizing st with
  | nil => exact Or.inl hx
  | cons p ps ih =>
    rcases ih _ hx with h | ⟨q, hq, h⟩
    · unfold after at h
      dsimp only at h
      cases hg : p.o.group with
      | none => rw [hg] at h; exact Or.inl h
      | some g =>
        rw [hg] at h
        rcases List.mem_cons.1 h with rfl | h
        · exact Or.inr ⟨p, List.mem_cons_self, hg, rfl⟩
        · exact Or.inl h
    · exact Or.inr ⟨q, List.mem_cons_of_mem _ hq, h⟩

theorem ns_keep (ps : List (Piece K)) (st : St K) (d : String) (h : ∀ p ∈ ps, p.o.dest ≠ d) :
    (ps.foldl after st).ns d = st.ns d := by
  induction ps generalizing st with
  | nil => rfl
  | cons p ps ih =>
    rw [List.foldl_cons, ih _ fun q hq => h q (List.mem_cons_of_mem _ hq)]
    unfold after
    exact if_neg fun e => h p List.mem_cons_self e.symm

theorem defaults_of {P : List (Opt K)} {o : Opt K} (ho : o ∈ P) (hh : o.help = false)
    (hd : ∀ o' ∈ P, o'.dest = o.dest → o'.default = o.default) : defaults P o.dest = some o.default := by
  obtain ⟨o', hf⟩ : ∃ o', ((P.filter fun o => !o.help).find? fun o' => o'.dest = o.dest) = some o' := by
    rw [← Option.isSome_iff_exists, List.find?_isSome]
    exact ⟨o, List.mem_filter.2 ⟨ho, by simp [hh]⟩, by simp⟩
  have hm := List.mem_filter.1 (List.mem_of_find?_eq_some hf)
  have hd' : o'.dest = o.dest := by simpa using List.find?_some hf
  rw [defaults, hf]
  simp only [Option.map_some, Option.some.injEq]
  exact hd o' hm.1 hd'

/-! ## Theorem -/

/-- **C128** (partial: the file name must not follow an option that takes any number of values, or an optional one, unless
after `--`).  A command line made of options with values, in any order, and the positional arguments somewhere between them
or after `--`, is accepted; each attribute has the value of the last part that sets it, or the default if there is none. -/
theorem C128_roundtrip_partial (c : Conv K) (P : List (Opt K)) (hP : Proper P) (ps tail : List (Piece K))
    (hps : ∀ p ∈ ps ++ tail, p.Ok c P) (hplain : ∀ p ∈ ps, ∀ s ∈ p.vals, Plain s) (htail : ∀ p ∈ tail, p.pos)
    (hpos : ((ps ++ tail).filter fun p => p.pos).map Piece.o = P.filter fun o => o.names = [])
    (htog : (ps ++ tail).Pairwise Together) (hsafe : ps.IsChain fun p q => q.pos → Sated p) :
    ∃ ns, getArgs c P (commandLine ps tail) = .ok ns ∧
      (∀ a p b, ps ++ tail = a ++ p :: b → (∀ q ∈ b, q.o.dest ≠ p.o.dest) → ns p.o.dest = some p.val) ∧
      (∀ o ∈ P, o.help = false → (∀ q ∈ ps ++ tail, q.o.dest ≠ o.dest) →
        (∀ o' ∈ P, o'.dest = o.dest → o'.default = o.default) → ns o.dest = some o.default) := by
  have hps1 : ∀ p ∈ ps, p.Ok c P := fun p hp => hps p (List.mem_append_left _ hp)
  have hps2 : ∀ p ∈ tail, p.Ok c P := fun p hp => hps p (List.mem_append_right _ hp)
  obtain ⟨ht1, ht2, ht3⟩ := List.pairwise_append.1 htog
  have hft : (tail.filter fun p => p.pos) = tail := by
    rw [List.filter_eq_self]
    intro p hp
    simpa using htail p hp
  have hst : (start P).positionals = (ps.filter fun p => p.pos).map Piece.o ++ tail.map Piece.o := by
    rw [List.filter_append, hft, List.map_append] at hpos
    rw [hpos]
    show P.filter (fun o => o.names.isEmpty) = _
    congr 1
    funext o
    cases o.names <;> rfl
  let t : Option (List String) := if tail = [] then none else some (tail.flatMap Piece.vals)
  have hcut : cut P (commandLine ps tail) = .ok (lineOf t ps) := by
    have := cut_pieces hP ps hps1 hplain t
    rw [← this]
    unfold commandLine
    congr 2
    by_cases h : tail = []
    · simp [t, h]
    · simp [t, h]
  obtain ⟨hr1, hr2, hr3⟩ := run_pieces hP.one ps hps1 t hsafe ht1 (start P) _ hst (by intro x hx; cases hx)
  have hseen : ∀ x ∈ (ps.foldl after (start P)).seen, ∀ p ∈ tail, p.o.group = some x.1 → p.o.names = x.2 := by
    intro x hx p hp hg
    rcases seen_after ps _ x hx with h | ⟨q, hq, h1, h2⟩
    · cases h
    · rw [← h2]
      exact (ht3 q hq p hp x.1 h1 hg).symm
  obtain ⟨hq1, hq2, hq3⟩ := run_tail hP.one tail hps2 htail ht2 _ hr2 hseen
  have htl : ∀ b, doTail c b t (ps.foldl after (start P)) = .ok (tail.foldl after (ps.foldl after (start P))) := by
    intro b
    by_cases h : tail = []
    · simp only [t, h, if_true, doTail, List.foldl_nil]
    · obtain ⟨p, l, rfl⟩ := List.exists_cons_of_ne_nil h
      have hp := hps2 p List.mem_cons_self
      obtain ⟨s, hv⟩ := one_val (hP.one p.o hp.mem (htail p List.mem_cons_self)) hp.means
      simp only [t, h, if_false, doTail]
      rw [if_pos, hq1]
      rw [hr2]
      simp [hv]
  refine ⟨(tail.foldl after (ps.foldl after (start P))).ns, ?_, ?_, ?_⟩
  · unfold getArgs
    rw [hcut]
    show Except.bind (feed c _ (start P)) _ = _
    have hb : ∀ f : St K → Except Stop (String → Option (Val K)),
        ((feed c (lineOf t ps).lead (start P)).bind fun st => (doGroups c (lineOf t ps).groups st).bind f) =
        ((feed c (lineOf t ps).lead (start P)).bind (doGroups c (lineOf t ps).groups)).bind f := by
      intro f
      cases feed c (lineOf t ps).lead (start P) <;> rfl
    rw [hb, hr1, lineOf_tail]
    show Except.bind (doTail c _ t _) finish = _
    rw [htl]
    show finish _ = _
    unfold finish
    rw [hq2, hq3, hr3]
    rfl
  · intro a p b e hb
    have : tail.foldl after (ps.foldl after (start P)) = (ps ++ tail).foldl after (start P) := by
      rw [List.foldl_append]
    rw [this, e, List.foldl_append, List.foldl_cons, ns_keep b _ _ hb]
    unfold after
    exact if_pos rfl
  · intro o ho hh hq hd
    rw [ns_keep tail _ _ fun q h => hq q (List.mem_append_right _ h),
      ns_keep ps _ _ fun q h => hq q (List.mem_append_left _ h)]
    exact defaults_of ho hh hd

/-! ## Where it fails -/

/-- **C128.** The file name after an option that takes any number of values is taken for one of them, and the command line
refused: for every parser with a positional argument, every option of that kind, and whatever the values and the name. -/
theorem C128_swallowed (c : Conv K) (P : List (Opt K)) (hP : Proper P) (p : Opt K) (hp : p ∈ P) (hpos : p.names = [])
    (o : Opt K) (ho : o ∈ P) (n : String) (hn : n ∈ o.names) (hk : o.nargs = .star ∨ o.nargs = .plus) (vals : List String)
    (f : String) (hv : ∀ s ∈ vals, Plain s) (hf : Plain f) : ∃ e, getArgs c P (n :: vals ++ [f]) = .error e := by
  obtain ⟨h1, h2⟩ := parse_name hP ho hn
  have hall : ∀ s ∈ vals ++ [f], Plain s := by
    intro s hs
    rcases List.mem_append.1 hs with hs | hs
    · exact hv s hs
    · rw [List.mem_singleton.1 hs]; exact hf
  have hc : cut P (n :: vals ++ [f]) = .ok ⟨[], [(.opt o n none, vals ++ [f])], none⟩ := by
    have := cut_plain hP (vals ++ [f]) [] hall ⟨[], [], none⟩ rfl
    rw [List.append_nil] at this
    rw [List.cons_append, cut, if_neg h2, h1, this]
    rfl
  cases h : getArgs c P (n :: vals ++ [f]) with
  | error e => exact ⟨e, rfl⟩
  | ok ns =>
    exfalso
    unfold getArgs at h
    rw [hc] at h
    obtain ⟨l, hl, h⟩ := bindOk h
    cases hl
    obtain ⟨s1, e1, h⟩ := bindOk h
    cases e1
    obtain ⟨s2, e2, h⟩ := bindOk h
    unfold doGroups at e2
    obtain ⟨s3, e3, e2⟩ := bindOk e2
    cases e2
    unfold doGroup at e3
    dsimp only at e3
    have hcount : count o.nargs (vals ++ [f]).length = some (vals ++ [f]).length := by
      rcases hk with hk | hk <;> rw [hk]
      · rfl
      · exact if_pos (by simp)
    rw [hcount] at e3
    dsimp only at e3
    rw [List.take_length, List.drop_length] at e3
    obtain ⟨s4, e4, e3⟩ := bindOk e3
    cases e3
    unfold takeAction at e4
    obtain ⟨v, _, e4⟩ := bindOk e4
    split at e4
    · cases e4
    · split at e4
      · cases e4
      · cases e4
        obtain ⟨s5, e5, h⟩ := bindOk h
        cases e5
        unfold finish at h
        have hne : (P.filter fun o => o.names.isEmpty).isEmpty = false := by
          rw [List.isEmpty_eq_false_iff]
          intro e
          have : p ∈ P.filter fun o => o.names.isEmpty := List.mem_filter.2 ⟨hp, by simp [hpos]⟩
          rw [e] at this
          cases this
        simp only [start, hne] at h
        cases h

/-- **C128.** A negative number in exponent notation is taken for an unknown option, and the command line refused: for every
option that needs a value. -/
theorem C128_exponent (c : Conv K) (P : List (Opt K)) (hP : Proper P) (o : Opt K) (ho : o ∈ P) (n : String)
    (hn : n ∈ o.names) (hk : o.nargs = .one ∨ o.nargs = .plus) (a : List String) (ha : ∀ s ∈ a, Plain s) (f : String)
    (x : Char) (t : List Char) (hr : f.toList = '-' :: x :: t) (hx : x.isDigit = true) (he : 'e' ∈ t) (heq : '=' ∉ t)
    (hsp : ' ' ∉ t) (l : List String) : ∃ e, getArgs c P (a ++ n :: f :: l) = .error e := by
  obtain ⟨h1, h2⟩ := parse_name hP ho hn
  have hx' : x ≠ '=' := by rintro rfl; cases hx
  have hx'' : x ≠ ' ' := by rintro rfl; cases hx
  obtain ⟨h3, h4⟩ := digit_parse hP hr (Or.inr hx) (by simp [hx'.symm, heq])
  have hnum : isNumber (x :: t) = false := by
    cases hi : isNumber (x :: t) with
    | false => rfl
    | true =>
      exfalso
      unfold isNumber at hi
      have hde : Char.isDigit 'e' = false := rfl
      have hd : ∀ l : List Char, 'e' ∈ l → l.all Char.isDigit = true → False := by
        intro l hl ha
        have := List.all_eq_true.1 ha _ hl
        rw [hde] at this
        cases this
      have hdrop : 'e' ∈ (x :: t).dropWhile Char.isDigit := by
        have : ∀ l : List Char, 'e' ∈ l → 'e' ∈ l.dropWhile Char.isDigit := by
          intro l hl
          induction l with
          | nil => cases hl
          | cons y l ih =>
            rw [List.dropWhile_cons]
            split
            · rename_i hy
              rcases List.mem_cons.1 hl with rfl | hl
              · cases hy
              · exact ih hl
            · exact hl
        exact this _ (List.mem_cons_of_mem _ he)
      dsimp only at hi
      generalize (x :: t).dropWhile Char.isDigit = r at hi hdrop
      cases r with
      | nil => cases hdrop
      | cons y r =>
        simp only [List.isEmpty_cons, Bool.false_and, Bool.false_or] at hi
        split at hi
        · rename_i d hd'
          simp only [List.cons.injEq] at hd'
          obtain ⟨rfl, rfl⟩ := hd'
          rcases List.mem_cons.1 hdrop with e | e
          · cases e
          · simp only [Bool.and_eq_true] at hi
            exact hd _ e hi.2
        · cases hi
  have hsp' : (x :: t).contains ' ' = false := by
    simp [hsp, hx''.symm]
  rw [hnum, hsp'] at h3
  simp only [Bool.false_eq_true, if_false] at h3
  cases h : getArgs c P (a ++ n :: f :: l) with
  | error e => exact ⟨e, rfl⟩
  | ok ns =>
    exfalso
    unfold getArgs at h
    obtain ⟨l1, hl1, h⟩ := bindOk h
    obtain ⟨s1, e1, h⟩ := bindOk h
    obtain ⟨s2, e2, h⟩ := bindOk h
    have hna : "--" ∉ a := fun hm => (plain_parse hP (ha _ hm)).2 rfl
    obtain ⟨rl, pre, hc, hg⟩ := cut_append hP ho hn a _ hna hl1
    rw [cut, if_neg h4, h3] at hc
    obtain ⟨t', ht', hc⟩ := bindOk hc
    cases ht'
    obtain ⟨r', _, hc⟩ := bindOk hc
    cases hc
    rw [hg, doGroups_append] at e2
    obtain ⟨s3, e3, e2⟩ := bindOk e2
    unfold doGroups at e2
    obtain ⟨s4, e4, e2⟩ := bindOk e2
    unfold doGroup at e4
    rcases hk with hk | hk <;> simp [hk, count] at e4

/-- **C128.** In `euphonic-dos`: a file name after `--pdos` and any species is taken for one more species; `--e-min -1e-3`
is refused. -/
theorem C128_dos_wrong [Field K] : ∃ P, dosParser (K := K) = .ok P ∧
    (∀ c species f, (∀ s ∈ species, Plain s) → Plain f → ∃ e, getArgs c P ("--pdos" :: species ++ [f]) = .error e) ∧
    ∀ c f, Plain f → ∃ e, getArgs c P [f, "--e-min", "-1e-3"] = .error e := by
  have hP := proper_of (K := K) dos_good (cli_nodup _ (by decide)) (cli_dash _)
  refine ⟨_, getCliParser_eq _ (by decide) (by decide), ?_, ?_⟩
  · intro c species f hs hf
    refine C128_swallowed c _ hP { names := [], dest := "filename" } ?_ rfl
      { names := ["--pdos"], dest := "pdos", nargs := .star } ?_ _ (List.mem_singleton_self _) (Or.inl rfl) species f hs hf
    · exact List.mem_cons_of_mem _ (by
        unfold cliOpts
        simp only [List.append_assoc]
        exact List.mem_append_left _ (by simp [fileOpts, whenever, has]))
    · exact List.mem_cons_of_mem _ (by
        unfold cliOpts
        simp only [List.mem_append, pdosOpts]
        simp [whenever, has])
  · intro c f hf
    refine C128_exponent c _ hP (fltOpt ["--e-min"] "e_min") ?_ _ (List.mem_singleton_self _) (Or.inl rfl) [f] ?_ "-1e-3" '1'
      ['e', '-', '3'] rfl rfl (by decide) (by decide) (by decide) []
    · exact List.mem_cons_of_mem _ (by
        unfold cliOpts
        simp only [List.mem_append, energyOpts]
        simp [whenever, has])
    · intro s hs
      rw [List.mem_singleton.1 hs]
      exact hf

/-! ## Examples -/

-- A command line of `euphonic-show-sampling`: `--jitter 10 -s a.png -- golden-square`.
example : ∃ ns, getArgs exampleConv (helpOpt :: samplingOpts) ["--jitter", "10", "-s", "a.png", "--", "golden-square"] = .ok ns ∧
    ns "npts" = some (ofInt 10) ∧ ns "sampling" = some (ofStr "golden-square") := by
  let oNpts : Opt ℚ := { names := [], dest := "npts", typ := .int }
  let oSamp : Opt ℚ := { names := [], dest := "sampling", choices := some ["golden-square", "regular-square",
    "recurrence-square", "golden-sphere", "sphere-from-square-grid", "spherical-polar-grid", "spherical-polar-improved",
    "random-sphere", "recurrence-cube"] }
  let ps : List (Piece ℚ) := [⟨flagOpt ["--jitter"] "jitter", "--jitter", [], .bool true⟩, ⟨oNpts, "", ["10"], ofInt 10⟩,
    ⟨strOpt ["-s", "--save-plot"] "save_plot", "-s", ["a.png"], ofStr "a.png"⟩]
  let tail : List (Piece ℚ) := [⟨oSamp, "", ["golden-square"], ofStr "golden-square"⟩]
  obtain ⟨ns, h1, h2, _⟩ := C128_roundtrip_partial exampleConv _ sampling_proper ps tail
    (by
      intro p hp
      simp only [ps, tail, List.cons_append, List.nil_append, List.mem_cons, List.not_mem_nil, or_false] at hp
      rcases hp with rfl | rfl | rfl | rfl
      · exact ⟨by simp [samplingOpts], rfl, fun _ => by simp [flagOpt], by simp [Means, Fits, flagOpt]⟩
      · exact ⟨by simp [samplingOpts, oNpts], rfl, fun h => absurd rfl h,
          rfl, "10", .int 10, rfl, ⟨⟨10, by decide +kernel, rfl⟩, fun l hl => by cases hl⟩, rfl⟩
      · exact ⟨by simp [samplingOpts], rfl, fun _ => by simp [strOpt], rfl, "a.png", .str "a.png", rfl,
          ⟨rfl, fun l hl => by cases hl⟩, rfl⟩
      · exact ⟨by simp [samplingOpts, oSamp], rfl, fun h => absurd rfl h, rfl, "golden-square",
          .str "golden-square", rfl, ⟨rfl, fun l hl => ⟨"golden-square", by cases hl; simp, rfl⟩⟩, rfl⟩)
    (by
      intro p hp s hs
      left
      intro r hr
      simp only [ps, List.mem_cons, List.not_mem_nil, or_false] at hp
      rcases hp with rfl | rfl | rfl
      · cases hs
      · rw [List.mem_singleton.1 hs] at hr
        cases hr
      · rw [List.mem_singleton.1 hs] at hr
        cases hr)
    (by intro p hp; rw [List.mem_singleton.1 hp])
    (by rfl)
    (by
      have hg : ∀ p ∈ ps ++ tail, p.o.group = none := by
        intro p hp
        simp only [ps, tail, List.cons_append, List.nil_append, List.mem_cons, List.not_mem_nil, or_false] at hp
        rcases hp with rfl | rfl | rfl | rfl <;> rfl
      exact List.Pairwise.imp_of_mem (R := fun _ _ => True) (fun hp _ _ g h => by rw [hg _ hp] at h; cases h)
        (List.pairwise_of_forall (fun _ _ => trivial)))
    (by
      refine .cons_cons (fun _ => Or.inr (Or.inr (Or.inr (Or.inl rfl)))) (.cons_cons (fun _ => Or.inl rfl) (.singleton _)))
  exact ⟨ns, h1, h2 [_] ⟨oNpts, "", ["10"], ofInt 10⟩ [_, _] rfl (by
      intro q hq
      simp only [List.mem_cons, List.not_mem_nil, or_false] at hq
      rcases hq with rfl | rfl <;> simp [strOpt, oSamp, oNpts]),
    h2 [_, _, _] ⟨oSamp, "", ["golden-square"], ofStr "golden-square"⟩ [] rfl (by intro q hq; cases hq)⟩

-- The two command lines that fail, and how to write them.
example : attrs dosParser ["--pdos", "Si", "f.json"] [] = none ∧ attrs dosParser ["--asr", "f.json"] [] = none ∧
    attrs dosParser ["f.json", "--e-min", "-1e-3"] [] = none ∧
    attrs dosParser ["f.json", "--pdos", "Si"] ["filename", "pdos"] = some [some (ofStr "f.json"), some (.list [.str "Si"])] ∧
    attrs dosParser ["--pdos", "Si", "--", "f.json"] ["filename", "pdos"] =
      some [some (ofStr "f.json"), some (.list [.str "Si"])] ∧
    attrs dosParser ["f.json", "--e-min", "-3"] ["e_min"] = some [some (ofFlt (-3))] := by decide +kernel

end Euphonic.Args
