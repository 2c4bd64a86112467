import Verif.Model.CastepText
import Verif.Lemmas.Split
import Verif.Props.CastepPhonon
import Mathlib.Data.List.Infix
import Mathlib.Data.List.GetD
import Mathlib.Tactic.Ring

/-!
# C97: `.phonon` files are read back exactly; cut files are refused
-/

set_option autoImplicit false

namespace Euphonic.CastepText

/-! ## Specification of the layout of the files -/

/-- A word consists of printable characters other than the blank. -/
def IsWord (t : List Char) : Prop := t ≠ [] ∧ ∀ c ∈ t, 33 ≤ c.toNat ∧ c.toNat ≤ 126

/-- Blanks. -/
def blanks (n : Nat) : List Char := List.replicate n ' '

/-- Words, each behind one blank at least. -/
def columns (cols : List (Nat × List Char)) : List Char := cols.flatMap fun p => blanks (p.1 + 1) ++ p.2

/-- A line with the given words, separated by blanks in any number. -/
def IsLine (ts : List (List Char)) (l : Line) : Prop :=
  (∀ t ∈ ts, IsWord t) ∧ ∃ n t0 cols k, ts = t0 :: cols.map (·.2) ∧ l = blanks n ++ t0 ++ columns cols ++ blanks k ++ ['\n']

/-- A number in fixed-point notation: digits, a point, digits, perhaps with a minus sign. -/
def IsFixed (t : List Char) : Prop :=
  ∃ (neg : Bool) (ip fp : List Char), ip ≠ [] ∧ fp ≠ [] ∧ (∀ c ∈ ip, c.isDigit = true) ∧
    (∀ c ∈ fp, c.isDigit = true) ∧ t = (if neg then ['-'] else []) ++ ip ++ '.' :: fp

/-- The line that begins a block: `q-pt=`, the index, the q-point, the weight and perhaps a direction. -/
def IsQLine (id : Nat) (nums : List (List Char)) (l : Line) : Prop :=
  (∀ t ∈ nums, IsFixed t) ∧ ∃ a b cols k, nums = cols.map (·.2) ∧
    l = blanks a ++ ['q', '-', 'p', 't', '='] ++ blanks b ++ Nat.toDigits 10 id ++ columns cols ++ blanks k ++ ['\n']

/-! ## Words -/

theorem word_not_space {t : List Char} (h : IsWord t) : ∀ c ∈ t, isSpace c = false := by
  intro c hc
  have h1 := h.2 c hc
  simp only [isSpace, Bool.or_eq_false_iff, decide_eq_false_iff_not]
  refine ⟨⟨⟨⟨⟨?_, ?_⟩, ?_⟩, ?_⟩, ?_⟩, ?_⟩ <;> rintro rfl <;> revert h1 <;> decide

theorem wordsAux_word {t : List Char} (ht : ∀ c ∈ t, isSpace c = false) (rest cur : List Char) :
    wordsAux (t ++ rest) cur = wordsAux rest (cur ++ t) := by
  induction t generalizing cur with
  | nil => simp
  | cons c t ih =>
    simp only [List.cons_append, wordsAux, ht c (by simp), Bool.false_eq_true, if_false]
    rw [ih (fun x hx => ht x (by simp [hx]))]
    simp

theorem wordsAux_blanks (n : Nat) (rest : List Char) : wordsAux (blanks n ++ rest) [] = wordsAux rest [] := by
  induction n with
  | zero => rfl
  | succ n ih =>
    simp only [blanks, List.replicate_succ, List.cons_append, wordsAux]
    simpa [isSpace, blanks] using ih

theorem wordsAux_end (n : Nat) (rest : List Char) {cur : List Char} (hc : cur ≠ []) :
    wordsAux (blanks (n + 1) ++ rest) cur = cur :: wordsAux rest [] := by
  simp only [blanks, List.replicate_succ, List.cons_append, wordsAux]
  have := wordsAux_blanks n rest
  simp only [blanks] at this
  simp [isSpace, hc, this]

theorem wordsAux_tail (k : Nat) {cur : List Char} (hc : cur ≠ []) :
    wordsAux (blanks k ++ ['\n']) cur = [cur] := by
  cases k with
  | zero => simp [blanks, wordsAux, isSpace, hc]
  | succ k =>
    rw [wordsAux_end k _ hc]
    simp [wordsAux, isSpace]

theorem wordsAux_columns (cols : List (Nat × List Char)) (hw : ∀ p ∈ cols, IsWord p.2) (k : Nat) {cur : List Char}
    (hc : cur ≠ []) : wordsAux (columns cols ++ blanks k ++ ['\n']) cur = cur :: cols.map (·.2) := by
  induction cols generalizing cur with
  | nil => simpa [columns] using wordsAux_tail k hc
  | cons p cols ih =>
    have h1 := hw p (by simp)
    have : columns (p :: cols) ++ blanks k ++ ['\n'] =
        blanks (p.1 + 1) ++ (p.2 ++ (columns cols ++ blanks k ++ ['\n'])) := by
      simp [columns]
    rw [this, wordsAux_end _ _ hc, wordsAux_word (word_not_space h1), List.nil_append,
      ih (fun q hq => hw q (by simp [hq])) h1.1]
    simp

/-- The words of a line are read back. -/
theorem words_isLine {ts : List (List Char)} {l : Line} (h : IsLine ts l) : words l = ts := by
  obtain ⟨hw, n, t0, cols, k, rfl, rfl⟩ := h
  have h0 := hw t0 (by simp)
  have e : blanks n ++ t0 ++ columns cols ++ blanks k ++ ['\n'] =
      blanks n ++ (t0 ++ (columns cols ++ blanks k ++ ['\n'])) := by simp
  unfold words
  rw [e, wordsAux_blanks, wordsAux_word (word_not_space h0), List.nil_append,
    wordsAux_columns cols (fun p hp => hw p.2 (by simp; exact .inr ⟨p.1, hp⟩)) k h0.1]

/-! ## Numbers -/

theorem isDigit_iff (c : Char) : isDigit c = c.isDigit := by
  unfold isDigit Char.isDigit
  rw [Bool.eq_iff_iff]
  simp only [decide_eq_true_eq, Bool.and_eq_true, UInt32.le_iff_toNat_le]
  rfl

theorem takeWhile_digits {ds : List Char} (h : ∀ c ∈ ds, c.isDigit = true) {rest : List Char}
    (hr : ∀ c ∈ rest.head?, c.isDigit = false) :
    (ds ++ rest).takeWhile isDigit = ds ∧ (ds ++ rest).dropWhile isDigit = rest := by
  induction ds with
  | nil =>
    cases rest with
    | nil => simp
    | cons c r =>
      have := hr c (by simp)
      simp [isDigit_iff, this]
  | cons d ds ih =>
    have h1 : isDigit d = true := by rw [isDigit_iff]; exact h d (by simp)
    have := ih (fun c hc => h c (by simp [hc]))
    simp [h1, this.1, this.2]

theorem digit_ne_minus {c : Char} (h : c.isDigit = true) : c ≠ '-' := by rintro rfl; revert h; decide

theorem digit_ne_blank {c : Char} (h : c.isDigit = true) : isSpace c = false := by
  rw [← isDigit_iff] at h
  simp only [isDigit, decide_eq_true_eq] at h
  simp only [isSpace, Bool.or_eq_false_iff, decide_eq_false_iff_not]
  refine ⟨⟨⟨⟨⟨?_, ?_⟩, ?_⟩, ?_⟩, ?_⟩, ?_⟩ <;> rintro rfl <;> revert h <;> decide

/-- A number in fixed-point notation is matched as a whole. -/
theorem matchFloat_fixed {t : List Char} (h : IsFixed t) {rest : List Char}
    (hr : ∀ c ∈ rest.head?, c.isDigit = false) : matchFloat (t ++ rest) = some (t, rest) := by
  obtain ⟨neg, ip, fp, h1, h2, h3, h4, rfl⟩ := h
  have key := takeWhile_digits h3 (rest := '.' :: (fp ++ rest)) (by simp)
  have key2 := takeWhile_digits h4 hr
  have hhead : ((ip ++ '.' :: (fp ++ rest)).head? = some '-') = False := by
    cases ip with
    | nil => exact absurd rfl h1
    | cons d ip => simpa using digit_ne_minus (h3 d (by simp))
  cases neg
  · have e : (if false = true then ['-'] else []) ++ ip ++ '.' :: fp ++ rest = ip ++ '.' :: (fp ++ rest) := by simp
    rw [e]
    simp only [matchFloat, hhead, if_false, key.1, key.2, List.drop_one, List.tail_cons, key2.1, key2.2,
      List.head?_cons]
    simp [h1, h2]
  · have e : (if true = true then ['-'] else []) ++ ip ++ '.' :: fp ++ rest = '-' :: (ip ++ '.' :: (fp ++ rest)) := by
      simp
    rw [e]
    simp only [matchFloat, List.head?_cons, if_true, List.drop_one, List.tail_cons, key.1, key.2, key2.1, key2.2]
    simp [h1, h2]

theorem matchFloat_split {l : List Char} {p : List Char × List Char} (h : matchFloat l = some p) :
    p.1 ++ p.2 = l ∧ p.1 ≠ [] := by
  unfold matchFloat at h
  dsimp only at h
  have e1 : (if l.head? = some '-' then ['-'] else []) ++ (if l.head? = some '-' then l.drop 1 else l) = l := by
    split
    · rename_i hl
      cases l with
      | nil => simp at hl
      | cons c l =>
        simp only [List.head?_cons, Option.some.injEq] at hl
        subst hl
        rfl
    · rfl
  generalize (if l.head? = some '-' then ['-'] else []) = sg at h e1
  generalize (if l.head? = some '-' then l.drop 1 else l) = r at h e1
  split at h
  · rename_i hc
    simp only [Option.some.injEq] at h
    subst h
    obtain ⟨h1, h2, h3⟩ := hc
    refine ⟨?_, by simp⟩
    have e2 : r.dropWhile isDigit = '.' :: (r.dropWhile isDigit).drop 1 := by
      cases hd : r.dropWhile isDigit with
      | nil => rw [hd] at h2; simp at h2
      | cons c l' =>
        rw [hd] at h2
        simp only [List.head?_cons, Option.some.injEq] at h2
        subst h2
        rfl
    have e3 := List.takeWhile_append_dropWhile (p := isDigit) (l := (r.dropWhile isDigit).drop 1)
    have e4 := List.takeWhile_append_dropWhile (p := isDigit) (l := r)
    calc _ = sg ++ (r.takeWhile isDigit ++
          ('.' :: (((r.dropWhile isDigit).drop 1).takeWhile isDigit ++
            ((r.dropWhile isDigit).drop 1).dropWhile isDigit))) := by simp
      _ = _ := by rw [e3, ← e2, e4, e1]
  · cases h

theorem findFloatsN_stable (n : Nat) : ∀ (m : Nat) (l : List Char), l.length ≤ n → l.length ≤ m →
    findFloatsN n l = findFloatsN m l := by
  induction n with
  | zero =>
    intro m l h1 _
    have : l = [] := by cases l with
      | nil => rfl
      | cons c cs => simp at h1
    subst this
    cases m <;> rfl
  | succ n ih =>
    intro m l h1 h2
    cases l with
    | nil => cases m <;> rfl
    | cons c cs =>
      cases m with
      | zero => simp at h2
      | succ m =>
        simp only [List.length_cons] at h1 h2
        cases hm : matchFloat (c :: cs) with
        | none =>
          simp only [findFloatsN, hm]
          exact ih m cs (by omega) (by omega)
        | some p =>
          simp only [findFloatsN, hm]
          obtain ⟨e1, e2⟩ := matchFloat_split hm
          have e3 : p.1.length + p.2.length = cs.length + 1 := by
            rw [← List.length_append, e1]; rfl
          have e4 : 0 < p.1.length := List.length_pos_iff.2 e2
          rw [ih m p.2 (by omega) (by omega)]

theorem findFloats_some {l : List Char} {p : List Char × List Char} (h : matchFloat l = some p) :
    findFloats l = p.1 :: findFloats p.2 := by
  obtain ⟨e1, e2⟩ := matchFloat_split h
  have e3 : p.1.length + p.2.length = l.length := by rw [← List.length_append, e1]
  have e4 : 0 < p.1.length := List.length_pos_iff.2 e2
  cases l with
  | nil => simp only [List.length_nil] at e3; omega
  | cons c cs =>
    simp only [List.length_cons] at e3
    simp only [findFloats, List.length_cons, findFloatsN, h]
    rw [findFloatsN_stable _ p.2.length _ (by omega) (by omega)]

theorem findFloats_none {c : Char} {cs : List Char} (h : matchFloat (c :: cs) = none) :
    findFloats (c :: cs) = findFloats cs := by
  simp only [findFloats, List.length_cons, findFloatsN, h]

/-- Nothing is found at a character that is neither a digit nor a minus sign. -/
theorem matchFloat_other {c : Char} {cs : List Char} (h1 : c ≠ '-') (h2 : c.isDigit = false) :
    matchFloat (c :: cs) = none := by
  have : isDigit c = false := by rw [isDigit_iff]; exact h2
  simp [matchFloat, h1, this]

theorem findFloats_blanks (n : Nat) (rest : List Char) : findFloats (blanks n ++ rest) = findFloats rest := by
  induction n with
  | zero => rfl
  | succ n ih =>
    simp only [blanks, List.replicate_succ, List.cons_append]
    rw [findFloats_none (matchFloat_other (by decide) (by decide))]
    exact ih

/-- Digits followed by a blank are not a number in fixed-point notation. -/
theorem findFloats_digits {ds : List Char} (h : ∀ c ∈ ds, c.isDigit = true) (rest : List Char)
    (hr : ∀ c ∈ rest.head?, c.isDigit = false ∧ c ≠ '.') : findFloats (ds ++ rest) = findFloats rest := by
  induction ds with
  | nil => rfl
  | cons d ds ih =>
    rw [List.cons_append, findFloats_none, ih (fun c hc => h c (by simp [hc]))]
    have key := takeWhile_digits h (rest := rest) (fun c hc => (hr c hc).1)
    have hd : d ≠ '-' := digit_ne_minus (h d (by simp))
    simp only [List.cons_append] at key
    have : rest.head? ≠ some '.' := fun he => (hr '.' (by rw [he]; rfl)).2 rfl
    simp [matchFloat, hd, key.2, this]

theorem findFloats_columns {cols : List (Nat × List Char)} (h : ∀ p ∈ cols, IsFixed p.2) (k : Nat) :
    findFloats (columns cols ++ blanks k ++ ['\n']) = cols.map (·.2) := by
  induction cols with
  | nil =>
    simp only [columns, List.flatMap_nil, List.nil_append, List.map_nil]
    rw [findFloats_blanks, findFloats_none (matchFloat_other (by decide) (by decide))]
    rfl
  | cons p cols ih =>
    have e : columns (p :: cols) ++ blanks k ++ ['\n'] =
        blanks (p.1 + 1) ++ (p.2 ++ (columns cols ++ blanks k ++ ['\n'])) := by simp [columns]
    have hnext : ∀ c ∈ (columns cols ++ blanks k ++ ['\n']).head?, c.isDigit = false := by
      cases cols with
      | nil => cases k <;> simp [columns, blanks, List.replicate_succ]
      | cons q cols => simp [columns, blanks, List.replicate_succ]
    rw [e, findFloats_blanks, findFloats_some (matchFloat_fixed (h p (by simp)) hnext)]
    simp only [List.map_cons, List.cons.injEq, true_and]
    exact ih fun q hq => h q (by simp [hq])

/-- The numbers of the line that begins a block are found, all of them, in order; and nothing else. -/
theorem findFloats_qline {id : Nat} {nums : List (List Char)} {l : Line} (h : IsQLine id nums l) :
    findFloats l = nums := by
  obtain ⟨hf, a, b, cols, k, rfl, rfl⟩ := h
  have e : blanks a ++ ['q', '-', 'p', 't', '='] ++ blanks b ++ Nat.toDigits 10 id ++ columns cols ++ blanks k ++ ['\n']
      = blanks a ++ ('q' :: '-' :: 'p' :: 't' :: '=' :: (blanks b ++ (Nat.toDigits 10 id ++
        (columns cols ++ blanks k ++ ['\n'])))) := by simp
  have hminus : ∀ r, matchFloat ('-' :: 'p' :: r) = none := by
    intro r
    have : isDigit 'p' = false := by decide
    simp [matchFloat, this]
  rw [e, findFloats_blanks, findFloats_none (matchFloat_other (by decide) (by decide)), findFloats_none (hminus _),
    findFloats_none (matchFloat_other (by decide) (by decide)),
    findFloats_none (matchFloat_other (by decide) (by decide)),
    findFloats_none (matchFloat_other (by decide) (by decide)), findFloats_blanks,
    findFloats_digits (fun c hc => Nat.isDigit_of_mem_toDigits (by decide) (by decide) hc)]
  · exact findFloats_columns (fun p hp => hf p.2 (by simp; exact ⟨p.1, hp⟩)) k
  · cases cols with
    | nil => cases k <;> simp [columns, blanks, List.replicate_succ]
    | cons q cols => simp [columns, blanks, List.replicate_succ]

theorem natOf_toDigits (n : Nat) : natOf (Nat.toDigits 10 n) = n := by
  have h := Nat.ofDigitChars_ten_toDigits (n := n)
  rw [Nat.ofDigitChars_eq_foldl] at h
  exact h

theorem findIndex_blanks (n : Nat) (rest : List Char) : findIndex (blanks n ++ rest) = findIndex rest := by
  induction n with
  | zero => rfl
  | succ n ih =>
    have : matchIndex (' ' :: (blanks n ++ rest)) = none := by
      simp only [matchIndex]
      rw [if_neg]
      rintro ⟨h, _⟩
      simp at h
    simp only [blanks, List.replicate_succ, List.cons_append, findIndex]
    simp only [blanks] at this ih
    rw [this]
    exact ih

theorem dropWhile_blanks (n : Nat) {rest : List Char} (h : ∀ c ∈ rest.head?, isSpace c = false) :
    (blanks n ++ rest).dropWhile isSpace = rest := by
  induction n with
  | zero =>
    cases rest with
    | nil => rfl
    | cons c r =>
      have := h c (by simp)
      simp [blanks, this]
  | succ n ih =>
    simp only [blanks, List.replicate_succ, List.cons_append, List.dropWhile_cons]
    simpa [isSpace, blanks] using ih

/-- The index of the block is found. -/
theorem findIndex_qline {id : Nat} {nums : List (List Char)} {l : Line} (h : IsQLine id nums l) :
    findIndex l = some (Nat.toDigits 10 id) := by
  obtain ⟨hf, a, b, cols, k, rfl, rfl⟩ := h
  have e : blanks a ++ ['q', '-', 'p', 't', '='] ++ blanks b ++ Nat.toDigits 10 id ++ columns cols ++ blanks k ++ ['\n']
      = blanks a ++ ('q' :: '-' :: 'p' :: 't' :: '=' :: (blanks b ++ (Nat.toDigits 10 id ++
        (columns cols ++ blanks k ++ ['\n'])))) := by simp
  have hd : ∀ c ∈ Nat.toDigits 10 id, c.isDigit = true :=
    fun c hc => Nat.isDigit_of_mem_toDigits (by decide) (by decide) hc
  have h1 := takeWhile_digits hd (rest := columns cols ++ blanks k ++ ['\n']) (by
    cases cols with
    | nil => cases k <;> simp [columns, blanks, List.replicate_succ]
    | cons q cols => simp [columns, blanks, List.replicate_succ])
  have h2 := dropWhile_blanks b (rest := Nat.toDigits 10 id ++ (columns cols ++ blanks k ++ ['\n'])) (by
    have hne : Nat.toDigits 10 id ≠ [] := Nat.toDigits_ne_nil
    cases ht : Nat.toDigits 10 id with
    | nil => exact absurd ht hne
    | cons c r =>
      simp only [List.cons_append, List.head?_cons, Option.mem_def, Option.some.injEq, forall_eq']
      exact digit_ne_blank (hd c (by rw [ht]; simp)))
  have h3 : matchIndex ('q' :: '-' :: 'p' :: 't' :: '=' :: (blanks b ++ (Nat.toDigits 10 id ++
      (columns cols ++ blanks k ++ ['\n'])))) = some (Nat.toDigits 10 id) := by
    simp only [matchIndex, List.drop_succ_cons, List.drop_zero, h2, h1.1]
    simp [Nat.toDigits_ne_nil]
  rw [e, findIndex_blanks]
  simp only [findIndex, h3]

/-! ## The file -/

/-- A block: index, q-point, weight, direction, frequencies by branch, and the numbers of the eigenvectors by branch and atom. -/
structure TBlock where
  id : Nat
  q : List (List Char)
  w : List Char
  dir : Option (List (List Char))
  freqs : List (List Char)
  evecs : List (List (List (List Char)))

/-- The lines of a block: the q-point line, a line for each branch (index, frequency, perhaps more columns), two lines of
labels, and for each branch and atom a line with two indices and six numbers. -/
def BlockLines (nAtoms nBr : Nat) (b : TBlock) (ls : List Line) : Prop :=
  ∃ ql fl lab1 lab2 el, ls = ql :: (fl ++ lab1 :: lab2 :: el) ∧
    IsQLine b.id (b.q ++ b.w :: b.dir.getD []) ql ∧ b.q.length = 3 ∧ (∀ d ∈ b.dir, d.length = 3) ∧
    b.freqs.length = nBr ∧ List.Forall₂ (fun f l => ∃ i rest, IsLine (i :: f :: rest) l) b.freqs fl ∧
    b.evecs.length = nBr ∧ (∀ e ∈ b.evecs, e.length = nAtoms) ∧
    List.Forall₂ (fun r l => r.length = 6 ∧ ∃ m i, IsLine (m :: i :: r) l) b.evecs.flatten el

/-- An atom: position, symbol, mass. -/
structure TAtom where
  r : List (List Char)
  type : List Char
  mass : List Char

/-- The lines of the header behind the label of the cell: the cell, a label, the atoms, the end of the header. -/
def CrystalLines (nAtoms : Nat) (cell : List (List (List Char))) (atoms : List TAtom) (ls : List Line) : Prop :=
  ∃ cl lab al fin, ls = cl ++ lab :: (al ++ [fin]) ∧ cell.length = 3 ∧ atoms.length = nAtoms ∧
    List.Forall₂ (fun r l => r.length = 3 ∧ IsLine r l) cell cl ∧
    List.Forall₂ (fun a l => a.r.length = 3 ∧ ∃ i, IsLine (i :: (a.r ++ [a.type, a.mass])) l) atoms al

/-- A line of the header that ends in a number. -/
def IsCount (n : Nat) (l : Line) : Prop := ∃ ts, IsLine (ts ++ [Nat.toDigits 10 n]) l

/-- The beginning of a `.phonon` file. -/
def HeadLines (nAtoms nBr nQ : Nat) (ls : List Line) : Prop :=
  ∃ h0 h1 h2 h3 skip lab, ls = h0 :: h1 :: h2 :: h3 :: (skip ++ [lab]) ∧ IsCount nAtoms h1 ∧ IsCount nBr h2 ∧
    IsCount nQ h3 ∧ (∀ l ∈ skip, ¬ "Unit cell vectors".toList <:+: l) ∧ "Unit cell vectors".toList <:+: lab

section read
variable {K : Type}

/-- Three complex numbers. -/
def triple (val : List Char → K) (r : List (List Char)) : List (K × K) :=
  (List.range 3).map fun k => (val (r.getD (2 * k) []), val (r.getD (2 * k + 1) []))

/-- The data of a block. -/
def TBlock.data (val : List Char → K) (re : Bool) (b : TBlock) : PBlock K :=
  ⟨b.id, b.q.map val, b.dir.isSome, val b.w, b.freqs.map val,
    if re then b.evecs.map fun e => e.map (triple val) else []⟩

/-- The data of the crystal. -/
def crystalData (val : List Char → K) (cell : List (List (List Char))) (atoms : List TAtom) : Crystal K :=
  ⟨cell.map fun r => r.map val, atoms.map fun a => a.r.map val, atoms.map (·.type), atoms.map fun a => val a.mass⟩

theorem mapM_forall₂ {α β γ : Type} {R : α → β → Prop} {f : β → Except Err γ} {g : α → γ} {xs : List α} {ls : List β}
    (h : List.Forall₂ R xs ls) (hf : ∀ x l, R x l → f l = .ok (g x)) : ls.mapM f = .ok (xs.map g) := by
  induction h with
  | nil => rfl
  | cons h1 _ ih => rw [List.mapM_cons, hf _ _ h1, ih]; rfl

theorem forall₂_left {α β : Type} {R : α → β → Prop} {xs : List α} {ls : List β} (h : List.Forall₂ R xs ls) :
    ∀ x ∈ xs, ∃ l ∈ ls, R x l := by
  induction h with
  | nil => simp
  | cons h1 _ ih =>
    intro x hx
    rcases List.mem_cons.1 hx with rfl | hx
    · exact ⟨_, by simp, h1⟩
    · obtain ⟨l, hl, hr⟩ := ih x hx
      exact ⟨l, by simp [hl], hr⟩

theorem forall₂_right {α β : Type} {R : α → β → Prop} {xs : List α} {ls : List β} (h : List.Forall₂ R xs ls) :
    ∀ l ∈ ls, ∃ x ∈ xs, R x l := by
  induction h with
  | nil => simp
  | cons h1 _ ih =>
    intro x hx
    rcases List.mem_cons.1 hx with rfl | hx
    · exact ⟨_, by simp, h1⟩
    · obtain ⟨l, hl, hr⟩ := ih x hx
      exact ⟨l, by simp [hl], hr⟩

theorem readLines_append {n : Nat} {a : List Line} (b : List Line) (h : a.length = n) :
    readLines n (a ++ b) = a := by
  apply List.ext_getElem
  · simp [readLines, h]
  · intro i h1 h2
    simp only [readLines, List.getElem_map, List.getElem_range]
    rw [List.getD_eq_getElem _ _ (by simp; omega), List.getElem_append_left h2]

theorem mapM_ok_of {α β : Type} {f : α → Except Err β} {g : α → β} (l : List α) (h : ∀ x ∈ l, f x = .ok (g x)) :
    l.mapM f = .ok (l.map g) := by
  induction l with
  | nil => rfl
  | cons x l ih =>
    rw [List.mapM_cons, h x (by simp), ih fun y hy => h y (by simp [hy])]
    rfl

theorem toDigits_isDigit (n : Nat) : ∀ c ∈ Nat.toDigits 10 n, isDigit c = true := by
  intro c hc
  rw [isDigit_iff]
  exact Nat.isDigit_of_mem_toDigits (by decide) (by decide) hc

theorem lastInt_count {n : Nat} {l : Line} (h : IsCount n l) : lastInt l = .ok n := by
  obtain ⟨ts, hl⟩ := h
  unfold lastInt
  rw [words_isLine hl]
  simp only [List.getLast?_append, List.getLast?_singleton, Option.some_or]
  unfold parseInt
  rw [if_pos, natOf_toDigits]
  exact ⟨Nat.toDigits_ne_nil, List.all_eq_true.2 (toDigits_isDigit n)⟩

theorem contains_iff (p l : List Char) : contains p l = true ↔ p <:+: l := by
  induction l with
  | nil => simp [contains]
  | cons c l ih =>
    simp only [contains, Bool.or_eq_true, ih, List.isPrefixOf_iff_prefix]
    rw [List.infix_cons_iff]

theorem skipToCell_skip {skip : List Line} {lab : Line} (rest : List Line)
    (h1 : ∀ l ∈ skip, ¬ "Unit cell vectors".toList <:+: l) (h2 : "Unit cell vectors".toList <:+: lab) :
    skipToCell (skip ++ lab :: rest) = some rest := by
  induction skip with
  | nil =>
    have := (contains_iff _ _).2 h2
    simp only [List.nil_append, skipToCell, this, if_true]
  | cons l skip ih =>
    have : contains "Unit cell vectors".toList l = false := by
      rw [Bool.eq_false_iff]
      exact fun hc => h1 l (by simp) ((contains_iff _ _).1 hc)
    simp only [List.cons_append, skipToCell, this, Bool.false_eq_true, if_false]
    exact ih fun x hx => h1 x (by simp [hx])

theorem skipToCell_none {ls : List Line} (h : ∀ l ∈ ls, ¬ "Unit cell vectors".toList <:+: l) :
    skipToCell ls = none := by
  induction ls with
  | nil => rfl
  | cons l ls ih =>
    have : contains "Unit cell vectors".toList l = false := by
      rw [Bool.eq_false_iff]
      exact fun hc => h l (by simp) ((contains_iff _ _).1 hc)
    simp only [skipToCell, this, Bool.false_eq_true, if_false]
    exact ih fun x hx => h x (by simp [hx])

theorem sameLength_of {β : Type} {rows : List (List β)} {n : Nat} (h : ∀ r ∈ rows, r.length = n) :
    sameLength rows = .ok () := by
  unfold sameLength
  rw [if_pos]
  rw [List.all_eq_true]
  intro r hr
  cases rows with
  | nil => simp at hr
  | cons a rows => simp [h r hr, h a (by simp)]

variable {flt : List Char → Except Err K} {val : List Char → K} (hflt : ∀ t, IsWord t → flt t = .ok (val t))

include hflt

theorem crystalInfo_lines {nAtoms : Nat} {cell : List (List (List Char))} {atoms : List TAtom} {ls : List Line}
    (h : CrystalLines nAtoms cell atoms ls) (rest : List Line) :
    crystalInfo flt nAtoms (ls ++ rest) = .ok (crystalData val cell atoms, rest) := by
  obtain ⟨cl, lab, al, fin, rfl, hc, ha, h1, h2⟩ := h
  have lcl : cl.length = 3 := by rw [← h1.length_eq, hc]
  have lal : al.length = nAtoms := by rw [← h2.length_eq, ha]
  have e1 : readLines 3 (cl ++ lab :: (al ++ [fin]) ++ rest) = cl := by
    rw [List.append_assoc]; exact readLines_append _ lcl
  have e2 : (cl ++ lab :: (al ++ [fin]) ++ rest).drop 4 = al ++ fin :: rest := by
    have : cl ++ lab :: (al ++ [fin]) ++ rest = (cl ++ [lab]) ++ (al ++ fin :: rest) := by simp
    rw [this]
    exact List.drop_left' (by simp [lcl])
  have e3 : (cl ++ lab :: (al ++ [fin]) ++ rest).drop (4 + nAtoms + 1) = rest := by
    have : cl ++ lab :: (al ++ [fin]) ++ rest = (cl ++ lab :: (al ++ [fin])) ++ rest := by simp
    rw [this]
    exact List.drop_left' (by simp [lcl, lal]; omega)
  have e4 : readLines nAtoms (al ++ fin :: rest) = al := readLines_append _ lal
  have m1 : (cl.mapM fun l => ((words l).take 3).mapM flt) = .ok (cell.map fun r => r.map val) := by
    refine mapM_forall₂ h1 ?_
    rintro r l ⟨hr, hl⟩
    rw [words_isLine hl, List.take_of_length_le (by omega)]
    exact mapM_ok_of _ fun t ht => hflt t (hl.1 t ht)
  have m2 : sameLength (cell.map fun r => r.map val) = .ok () := by
    refine sameLength_of (n := 3) ?_
    intro r hr
    obtain ⟨r', hr', rfl⟩ := List.mem_map.1 hr
    obtain ⟨l, _, hl⟩ := forall₂_left h1 _ hr'
    simpa using hl.1
  have hw : ∀ l ∈ al, (words l).length = 6 := by
    intro l hl
    obtain ⟨a, _, har, i, hi⟩ := forall₂_right h2 l hl
    rw [words_isLine hi]
    simp [har]
  have m3 : sameLength (al.map words) = .ok () := by
    refine sameLength_of (n := 6) ?_
    intro r hr
    obtain ⟨l, hl, rfl⟩ := List.mem_map.1 hr
    exact hw l hl
  have m4 : ((al.map words).mapM fun y => ((y.drop 1).take 3).mapM flt) = .ok (atoms.map fun a => a.r.map val) := by
    rw [List.mapM_map]
    refine mapM_forall₂ h2 ?_
    rintro a l ⟨har, i, hi⟩
    rw [Function.comp_apply, words_isLine hi]
    simp only [List.drop_succ_cons, List.drop_zero]
    rw [List.take_left' har]
    exact mapM_ok_of _ fun t ht => hflt t (hi.1 t (by simp [ht]))
  have m5 : ((al.map words).mapM fun y => fieldAt y 4) = .ok (atoms.map (·.type)) := by
    rw [List.mapM_map]
    refine mapM_forall₂ h2 ?_
    rintro a l ⟨har, i, hi⟩
    rw [Function.comp_apply, words_isLine hi]
    have : (i :: (a.r ++ [a.type, a.mass]))[4]? = some a.type := by
      rw [List.getElem?_cons_succ, List.getElem?_append_right (by omega), har]
      rfl
    simp only [fieldAt, this]
  have m6 : ((al.map words).mapM fun y => do flt (← fieldAt y 5)) = .ok (atoms.map fun a => val a.mass) := by
    rw [List.mapM_map]
    refine mapM_forall₂ h2 ?_
    rintro a l ⟨har, i, hi⟩
    rw [Function.comp_apply, words_isLine hi]
    have : (i :: (a.r ++ [a.type, a.mass]))[5]? = some a.mass := by
      rw [List.getElem?_cons_succ, List.getElem?_append_right (by omega), har]
      rfl
    simp only [fieldAt, this]
    exact hflt _ (hi.1 _ (by simp))
  unfold crystalInfo
  rw [e1, e2, e3, e4, m1]
  simp only [bind, Except.bind] at m6 ⊢
  simp only [m2, m3, m4, m5, m6]
  rfl

omit hflt in
theorem fixed_isWord {t : List Char} (h : IsFixed t) : IsWord t := by
  obtain ⟨neg, ip, fp, h1, h2, h3, h4, rfl⟩ := h
  have hd : ∀ c : Char, c.isDigit = true → 33 ≤ c.toNat ∧ c.toNat ≤ 126 := by
    intro c hc
    rw [← isDigit_iff] at hc
    simp only [isDigit, decide_eq_true_eq] at hc
    omega
  refine ⟨by simp, ?_⟩
  intro c hc
  simp only [List.mem_append, List.mem_cons] at hc
  rcases hc with (hc | hc) | hc | hc
  · cases neg
    · simp at hc
    · simp only [if_true, List.mem_singleton] at hc
      subst hc
      decide
  · exact hd c (h3 c hc)
  · subst hc
    decide
  · exact hd c (h4 c hc)

omit hflt in
theorem wordAt_line {ts : List (List Char)} {l : Line} (h : IsLine ts l) {i : Nat} {t : List Char} (hi : ts[i]? = some t) :
    wordAt l i = .ok t := by
  unfold wordAt fieldAt
  rw [words_isLine h, hi]

/-- The frequencies and the head of a block. -/
theorem blockBody_lines {nBr : Nat} {b : TBlock} {ql : Line} {fl : List Line}
    (h1 : IsQLine b.id (b.q ++ b.w :: b.dir.getD []) ql) (h2 : b.q.length = 3) (h3 : ∀ d ∈ b.dir, d.length = 3)
    (h4 : b.freqs.length = nBr) (h5 : List.Forall₂ (fun f l => ∃ i rest, IsLine (i :: f :: rest) l) b.freqs fl)
    (rest : List Line) :
    blockBody flt nBr none ql (fl ++ rest) = .ok (⟨b.id, b.q.map val, b.dir, val b.w, b.freqs.map val, none⟩, rest) := by
  have lfl : fl.length = nBr := by rw [← h5.length_eq, h4]
  have m1 : ((b.q ++ b.w :: b.dir.getD []).take 3).mapM flt = .ok (b.q.map val) := by
    rw [List.take_left' h2]
    exact mapM_ok_of _ fun t ht => hflt t (fixed_isWord (h1.1 t (by simp [ht])))
  have m2 : (b.q ++ b.w :: b.dir.getD [])[3]? = some b.w := by
    rw [List.getElem?_append_right (by omega), h2]
    rfl
  have m3 : (if (b.q ++ b.w :: b.dir.getD []).length ≥ 6 then
      some (((b.q ++ b.w :: b.dir.getD []).drop 4).take 3) else none) = b.dir := by
    have hd : (b.q ++ b.w :: b.dir.getD []).drop 4 = b.dir.getD [] := by
      have : b.q ++ b.w :: b.dir.getD [] = (b.q ++ [b.w]) ++ b.dir.getD [] := by simp
      rw [this]
      exact List.drop_left' (by simp [h2])
    rw [hd]
    cases hdir : b.dir with
    | none => simp [h2]
    | some d =>
      have := h3 d hdir
      simp [h2, this, List.take_of_length_le]
  have m4 : (fl.mapM fun l => do flt (← wordAt l 1)) = .ok (b.freqs.map val) := by
    refine mapM_forall₂ h5 ?_
    rintro f l ⟨i, r, hl⟩
    rw [wordAt_line hl (t := f) rfl]
    exact hflt f (hl.1 f (by simp))
  unfold blockBody
  have m0 : qIndex ql = .ok b.id := by simp only [qIndex, findIndex_qline h1, natOf_toDigits]
  simp only [m0, findFloats_qline h1, readLines_append rest lfl, bind, Except.bind, m1, fieldAt,
    m2, hflt _ (fixed_isWord (h1.1 b.w (by simp)))]
  simp only [bind, Except.bind] at m4
  rw [m4, m3]
  simp only [readExtra]
  rw [List.drop_left' lfl]
  rfl

omit hflt in
theorem chunk_flatten {α : Type} (e : List (List α)) (n : Nat) (h : ∀ x ∈ e, x.length = n) :
    ((List.range e.length).map fun i => (e.flatten.drop (i * n)).take n) = e := by
  induction e with
  | nil => rfl
  | cons x e ih =>
    rw [List.length_cons, List.range_succ_eq_map, List.map_cons, List.map_map]
    have hx : x.length = n := h x (by simp)
    congr 1
    · simp [List.take_left' hx]
    · refine Eq.trans (List.map_congr_left fun i _ => ?_) (ih fun y hy => h y (by simp [hy]))
      have : (i + 1) * n = x.length + i * n := by rw [hx]; ring
      simp only [Function.comp_apply, List.flatten_cons, Nat.succ_eq_add_one]
      rw [this, ← List.drop_drop, List.drop_left]

theorem evecLines_lines {nAtoms nBr : Nat} {e : List (List (List (List Char)))} {el : List Line} (h1 : e.length = nBr)
    (h2 : ∀ x ∈ e, x.length = nAtoms)
    (h3 : List.Forall₂ (fun r l => r.length = 6 ∧ ∃ m i, IsLine (m :: i :: r) l) e.flatten el) (hne : e.flatten ≠ []) :
    evecLines flt nAtoms nBr el = .ok (e.map fun x => x.map (triple val)) := by
  have m1 : (el.mapM fun l => ((words l).drop 2).mapM flt) = .ok (e.flatten.map fun r => r.map val) := by
    refine mapM_forall₂ h3 ?_
    rintro r l ⟨_, m, i, hl⟩
    rw [words_isLine hl]
    exact mapM_ok_of _ fun t ht => hflt t (hl.1 t (by
      simp only [List.drop_succ_cons, List.drop_zero] at ht
      simp [ht]))
  have hlen : ∀ r ∈ e.flatten, r.length = 6 := fun r hr => by
    obtain ⟨l, _, hl⟩ := forall₂_left h3 r hr
    exact hl.1
  have m2 : sameLength (e.flatten.map fun r => r.map val) = .ok () := by
    refine sameLength_of (n := 6) ?_
    intro r hr
    obtain ⟨r', hr', rfl⟩ := List.mem_map.1 hr
    simpa using hlen r' hr'
  have m3 : ((e.flatten.map fun r => r.map val).headD []).length = 6 := by
    cases he : e.flatten with
    | nil => exact absurd he hne
    | cons r t => simpa using hlen r (by rw [he]; simp)
  have m4 : (e.flatten.map fun r => r.map val).mapM complexRow = .ok (e.flatten.map (triple val)) := by
    rw [List.mapM_map]
    refine mapM_ok_of _ ?_
    intro r hr
    have := hlen r hr
    match r, this with
    | [a, b, c, d, e, f], _ => rfl
  have m5 : ((List.range nBr).map fun i => ((e.flatten.map (triple val)).drop (i * nAtoms)).take nAtoms) =
      e.map fun x => x.map (triple val) := by
    rw [List.map_flatten, ← h1]
    have := chunk_flatten (e.map fun x => x.map (triple val)) nAtoms (by
      intro x hx
      obtain ⟨y, hy, rfl⟩ := List.mem_map.1 hx
      simpa using h2 y hy)
    simpa using this
  unfold evecLines
  rw [m1]
  simp only [bind, Except.bind, m2, m3, m4, m5]
  rfl

omit hflt in
theorem flatten_length {α : Type} (e : List (List α)) (n : Nat) (h : ∀ x ∈ e, x.length = n) :
    e.flatten.length = e.length * n := by
  induction e with
  | nil => simp
  | cons x e ih =>
    rw [List.flatten_cons, List.length_append, h x (by simp), ih fun y hy => h y (by simp [hy]), List.length_cons]
    ring

omit hflt in
theorem qline_ne_nil {id : Nat} {nums : List (List Char)} {l : Line} (h : IsQLine id nums l) : l ≠ [] := by
  obtain ⟨_, a, b, cols, k, _, rfl⟩ := h
  simp

/-- One block is read. -/
theorem phononBlocks_block {nAtoms nBr : Nat} (hpos : 0 < nAtoms * nBr) {b : TBlock} {ls : List Line}
    (h : BlockLines nAtoms nBr b ls) (re : Bool) (n : Nat) (rest : List Line) :
    phononBlocks flt re nAtoms nBr (n + 1) (ls ++ rest) = (do
      let t ← phononBlocks flt re nAtoms nBr n rest
      return b.data val re :: t) := by
  obtain ⟨ql, fl, lab1, lab2, el, rfl, h1, h2, h3, h4, h5, h6, h7, h8⟩ := h
  have lel : el.length = nAtoms * nBr := by
    rw [← h8.length_eq, flatten_length _ _ h7, h6, Nat.mul_comm]
  have e1 : readBlock flt nBr none [] (ql :: (fl ++ lab1 :: lab2 :: el) ++ rest) =
      .ok (some ⟨b.id, b.q.map val, b.dir, val b.w, b.freqs.map val, none⟩, lab1 :: lab2 :: (el ++ rest)) := by
    have : ql :: (fl ++ lab1 :: lab2 :: el) ++ rest = ql :: (fl ++ (lab1 :: lab2 :: (el ++ rest))) := by simp
    rw [this]
    unfold readBlock
    simp only [List.headD_cons, List.drop_succ_cons, List.drop_zero]
    rw [if_neg (qline_ne_nil h1), blockBody_lines hflt h1 h2 h3 h4 h5]
    rfl
  have e2 : blockEvecs flt re nAtoms nBr (lab1 :: lab2 :: (el ++ rest)) =
      .ok (if re then b.evecs.map fun e => e.map (triple val) else []) := by
    unfold blockEvecs
    cases re with
    | false => rfl
    | true =>
      simp only [if_true, List.drop_succ_cons, List.drop_zero]
      rw [readLines_append rest lel]
      refine evecLines_lines hflt h6 h7 h8 ?_
      intro hc
      have := h8.length_eq
      rw [hc, lel, List.length_nil] at this
      omega
  have e3 : (lab1 :: lab2 :: (el ++ rest)).drop (2 + nAtoms * nBr) = rest := by
    have : lab1 :: lab2 :: (el ++ rest) = (lab1 :: lab2 :: el) ++ rest := by simp
    rw [this]
    exact List.drop_left' (by simp [lel]; omega)
  rw [phononBlocks, e1]
  simp only [bind, Except.bind, e2, e3]
  rfl

/-- Blocks followed by lines on which the loop stops or fails. -/
theorem phononBlocks_blocks {nAtoms nBr : Nat} (hpos : 0 < nAtoms * nBr) {bs : List TBlock} {lss : List (List Line)}
    (h : List.Forall₂ (BlockLines nAtoms nBr) bs lss) (re : Bool) (n : Nat) (rest : List Line) :
    phononBlocks flt re nAtoms nBr (n + bs.length) (lss.flatten ++ rest) = (do
      let t ← phononBlocks flt re nAtoms nBr n rest
      return bs.map (TBlock.data val re) ++ t) := by
  induction h with
  | nil =>
    simp only [List.flatten_nil, List.nil_append, List.length_nil, Nat.add_zero, List.map_nil]
    cases phononBlocks flt re nAtoms nBr n rest <;> rfl
  | @cons b ls bs lss h1 _ ih =>
    rw [List.flatten_cons, List.append_assoc, List.length_cons, ← Nat.add_assoc, phononBlocks_block hflt hpos h1, ih]
    cases phononBlocks flt re nAtoms nBr n rest <;> rfl

/-- The lines of a whole file. -/
def PhononFile (nAtoms nBr nQ : Nat) (cell : List (List (List Char))) (atoms : List TAtom) (bs : List TBlock)
    (ls : List Line) : Prop :=
  ∃ hd cr lss, ls = hd ++ (cr ++ lss.flatten) ∧ HeadLines nAtoms nBr nQ hd ∧ CrystalLines nAtoms cell atoms cr ∧
    List.Forall₂ (BlockLines nAtoms nBr) bs lss

omit hflt in
theorem readPhonon_head [Field K] {nAtoms nBr nQ : Nat} {hd : List Line} (h : HeadLines nAtoms nBr nQ hd) (re av pr : Bool)
    (rest : List Line) :
    readPhonon flt re av pr (hd ++ rest) = some (phononBody flt re av pr nAtoms nBr nQ rest) := by
  obtain ⟨h0, h1, h2, h3, skip, lab, rfl, c1, c2, c3, hs, hl⟩ := h
  have e1 : phononHeader (h0 :: h1 :: h2 :: h3 :: (skip ++ [lab]) ++ rest) = .ok (nAtoms, nBr, nQ) := by
    simp only [phononHeader, List.cons_append, List.getD_cons_succ, List.getD_cons_zero, lastInt_count c1,
      lastInt_count c2, lastInt_count c3]
    rfl
  have e2 : skipToCell ((h0 :: h1 :: h2 :: h3 :: (skip ++ [lab]) ++ rest).drop 4) = some rest := by
    simp only [List.cons_append, List.drop_succ_cons, List.drop_zero, List.append_assoc, List.nil_append]
    exact skipToCell_skip rest hs hl
  unfold readPhonon
  rw [e1]
  simp only [e2]

omit hflt in
theorem blocks_length {nAtoms nBr : Nat} {bs : List TBlock} {lss : List (List Line)}
    (h : List.Forall₂ (BlockLines nAtoms nBr) bs lss) : bs.length ≤ lss.flatten.length := by
  induction h with
  | nil => simp
  | @cons b ls bs lss h1 _ ih =>
    obtain ⟨ql, fl, lab1, lab2, el, rfl, _⟩ := h1
    simp only [List.length_cons, List.flatten_cons, List.length_append]
    omega

/-- **C97**: a file of the layout is read completely: what is assembled (see C59, C60) are the numbers printed in its blocks,
one for one and in order, and the crystal is the one printed. -/
theorem C97_blocks [Field K] {nAtoms nBr nQ : Nat} (hpos : 0 < nAtoms * nBr) {cell : List (List (List Char))}
    {atoms : List TAtom} {bs : List TBlock} {ls : List Line} (h : PhononFile nAtoms nBr nQ cell atoms bs ls)
    (re av pr : Bool) :
    readPhonon flt re av pr ls = some (do
      let r ← assemble nAtoms nBr nQ re av pr (bs.map (TBlock.data val re))
      return (crystalData val cell atoms, r)) := by
  obtain ⟨hd, cr, lss, rfl, h1, h2, h3⟩ := h
  rw [readPhonon_head h1]
  unfold phononBody
  rw [crystalInfo_lines hflt h2]
  have hb := blocks_length h3
  obtain ⟨n, hn⟩ : ∃ n, lss.flatten.length + 1 = (n + 1) + bs.length := ⟨lss.flatten.length - bs.length, by omega⟩
  have key := phononBlocks_blocks hflt hpos h3 re (n + 1) []
  rw [List.append_nil] at key
  simp only [bind, Except.bind, hn] at key ⊢
  rw [key]
  simp only [phononBlocks, readBlock, List.headD_nil, if_true, bind, Except.bind, pure, Except.pure, List.append_nil]

/-- **C97**: a file with as many blocks as announced, or more, is read exactly: every number of the file appears at its place in
the result and nothing else does.  The weights are those of the file unless points are repeated and averaged (C59). -/
theorem C97_read [Field K] {nAtoms nBr nQ : Nat} (hpos : 0 < nAtoms * nBr) {cell : List (List (List Char))}
    {atoms : List TAtom} {bs : List TBlock} {ls : List Line} (h : PhononFile nAtoms nBr nQ cell atoms bs ls)
    (hn : nQ ≤ bs.length) (re av : Bool) :
    ∃ ws, readPhonon flt re av false ls = some (.ok (⟨cell.map fun r => r.map val, atoms.map fun a => a.r.map val,
        atoms.map (·.type), atoms.map fun a => val a.mass⟩,
      bs.map fun b => b.q.map val, ws, bs.map fun b => b.freqs.map val,
      if re then some (bs.map fun b => b.evecs.map fun e => e.map (triple val)) else none)) ∧
    ws.length = bs.length ∧
    ((av = false ∨ ∀ (i : Nat) b c, bs[i]? = some b → bs[i + 1]? = some c → b.id ≠ c.id) →
      ws = bs.map fun b => val b.w) := by
  rw [C97_blocks hflt hpos h]
  unfold assemble
  let zq : Zero (List K) := ⟨List.replicate 3 0⟩
  let zf : Zero (List K) := ⟨List.replicate nBr 0⟩
  let ze : Zero (List (List (List (K × K)))) := ⟨List.replicate nBr (List.replicate nAtoms (List.replicate 3 (0, 0)))⟩
  obtain ⟨-, hok⟩ := @Phonon.readBlocks_eq K (List K) (List K) (List (List (List (K × K)))) _ zq zf ze nQ re av false
    (bs.map (TBlock.data val re))
  have hok := hok (by rintro ⟨q, hq, _⟩; cases hq)
  obtain ⟨r1, r2, r3, r4⟩ := @Phonon.C60_no_padding K (List K) (List K) (List (List (List (K × K)))) _ zq zf ze nQ re av false
    (bs.map (TBlock.data val re)) (by simpa using hn) _ _ _ _ hok
  have r5 : ∀ (i : Nat) (b : PBlock K), (bs.map (TBlock.data val re))[i]? = some b → _ :=
    fun i b hb => @Phonon.C59_unaffected K (List K) (List K) (List (List (List (K × K)))) _ zq zf ze nQ re av false
    (bs.map (TBlock.data val re)) _ _ _ _ hok i b hb
  generalize hws : List.mapIdx (Phonon.newWeight av false (List.map (TBlock.data val re) bs))
    (List.map (TBlock.data val re) bs) ++ List.replicate (nQ - (List.map (TBlock.data val re) bs).length) 0 = ws
    at hok r4 r5
  rw [List.length_map] at r4
  refine ⟨ws, ?_, r4, ?_⟩
  · rw [hok, r1, r2, r3]
    simp only [List.map_map]
    cases re <;> rfl
  · intro hav
    apply List.ext_getElem
    · rw [r4, List.length_map]
    · intro i h1 h2
      rw [List.length_map] at h2
      have key := r5 i (bs[i].data val re) (by rw [List.getElem?_map, List.getElem?_eq_getElem h2]; rfl) (by
        rcases hav with hav | hav
        · exact .inl ⟨hav, rfl⟩
        · refine .inr ⟨fun c hc => ?_, fun c hi hc => ?_⟩
          · rw [List.getElem?_map] at hc
            obtain ⟨d, hd, rfl⟩ := Option.map_eq_some_iff.1 hc
            exact (hav i _ d (List.getElem?_eq_getElem h2) hd).symm
          · rw [List.getElem?_map] at hc
            obtain ⟨d, hd, rfl⟩ := Option.map_eq_some_iff.1 hc
            exact hav (i - 1) d _ hd (by rw [Nat.sub_add_cancel hi]; exact List.getElem?_eq_getElem h2))
      rw [List.getD_eq_getElem _ _ h1] at key
      rw [key, List.getElem_map]
      rfl

/-! ## Cut files -/

omit hflt in
theorem mapM_mem {α β : Type} {f : α → Except Err β} : ∀ {l : List α} {r : List β}, l.mapM f = .ok r →
    ∀ x ∈ l, ∃ v ∈ r, f x = .ok v := by
  intro l
  induction l with
  | nil => simp
  | cons a l ih =>
    intro r h x hx
    rw [List.mapM_cons] at h
    cases ha : f a with
    | error e => rw [ha] at h; cases h
    | ok v =>
      rw [ha] at h
      cases hl : l.mapM f with
      | error e => rw [hl] at h; cases h
      | ok t =>
        rw [hl] at h
        obtain rfl : v :: t = r := by simpa [bind, Except.bind, pure, Except.pure] using h
        rcases List.mem_cons.1 hx with rfl | hx
        · exact ⟨v, by simp, ha⟩
        · obtain ⟨w, hw, h2⟩ := ih hl x hx
          exact ⟨w, by simp [hw], h2⟩

omit hflt in
theorem bind_ok {α β : Type} {x : Except Err α} {f : α → Except Err β} {r : β} (h : x >>= f = .ok r) :
    ∃ v, x = .ok v ∧ f v = .ok r := by
  cases x with
  | error e => cases h
  | ok v => exact ⟨v, rfl, h⟩

omit hflt in
theorem readLines_missing {n : Nat} {ls : List Line} (h : ls.length < n) : [] ∈ readLines n ls := by
  refine List.mem_map.2 ⟨ls.length, by simpa using h, ?_⟩
  simp

omit hflt in
/-- The crystal is not read from fewer lines than it takes. -/
theorem crystalInfo_short {nAtoms : Nat} (hpos : 0 < nAtoms) {ls : List Line} (h : ls.length < 4 + nAtoms)
    (r : Crystal K × List Line) : crystalInfo flt nAtoms ls ≠ .ok r := by
  intro hc
  unfold crystalInfo at hc
  have hmem : [] ∈ (readLines nAtoms (ls.drop 4)).map words := by
    refine List.mem_map.2 ⟨[], readLines_missing ?_, rfl⟩
    rw [List.length_drop]
    omega
  have hbad : ∀ r', ((readLines nAtoms (ls.drop 4)).map words).mapM (fun y => fieldAt y 4) ≠ .ok r' := by
    intro r' hr
    obtain ⟨v, _, hv⟩ := mapM_mem hr [] hmem
    simp [fieldAt] at hv
  obtain ⟨_, _, hc⟩ := bind_ok hc
  obtain ⟨_, _, hc⟩ := bind_ok hc
  obtain ⟨_, _, hc⟩ := bind_ok hc
  obtain ⟨_, _, hc⟩ := bind_ok hc
  obtain ⟨_, h5, _⟩ := bind_ok hc
  exact hbad _ h5

omit hflt in
/-- A block is not read, if the eigenvectors are wanted, from fewer lines than it takes. -/
theorem phononBlocks_short {nAtoms nBr n : Nat} (hpos : 0 < nAtoms * nBr) {ls : List Line} (hne : ls.headD [] ≠ [])
    (h : ls.length < 3 + nBr + nAtoms * nBr) (r : List (PBlock K)) :
    phononBlocks flt true nAtoms nBr (n + 1) ls ≠ .ok r := by
  intro hc
  rw [phononBlocks] at hc
  obtain ⟨b, h1, hc⟩ := bind_ok hc
  unfold readBlock at h1
  simp only [if_neg hne] at h1
  obtain ⟨b', h2, h3⟩ := bind_ok h1
  obtain rfl : (some b'.1, b'.2) = b := by simpa [pure, Except.pure] using h3
  unfold blockBody at h2
  obtain ⟨_, _, h2⟩ := bind_ok h2
  obtain ⟨_, _, h2⟩ := bind_ok h2
  obtain ⟨_, _, h2⟩ := bind_ok h2
  obtain ⟨_, _, h2⟩ := bind_ok h2
  obtain ⟨_, h4, h2⟩ := bind_ok h2
  obtain ⟨_, _, h2⟩ := bind_ok h2
  have hl : nBr ≤ (ls.drop 1).length := by
    by_contra hlt
    obtain ⟨v, _, hv⟩ := mapM_mem h4 [] (readLines_missing (by omega))
    simp [wordAt, words, wordsAux, fieldAt, bind, Except.bind] at hv
  obtain ⟨e, h5, _⟩ := bind_ok hc
  have hb : b'.2 = (ls.drop 1).drop nBr := by
    have := congrArg Prod.snd (Except.ok.inj h2)
    exact this.symm
  rw [hb] at h5
  unfold blockEvecs evecLines at h5
  simp only [if_true] at h5
  obtain ⟨rows, h6, h5⟩ := bind_ok h5
  obtain ⟨_, h7, h5⟩ := bind_ok h5
  obtain ⟨v, hv, h8⟩ := mapM_mem h6 [] (readLines_missing (by simp only [List.length_drop] at hl ⊢; omega))
  obtain rfl : [] = v := by simpa [words, wordsAux, pure, Except.pure] using h8
  unfold sameLength at h7
  split at h7
  · rename_i hall
    have := List.all_eq_true.1 hall [] hv
    simp only [List.length_nil, decide_eq_true_eq] at this
    rw [← this] at h5
    simp [bind, Except.bind] at h5
  · cases h7

/-- The cut is at the end of a block (or of the header, perhaps without its last line). -/
def AtBoundary (nAtoms nBr nQ : Nat) (cell : List (List (List Char))) (atoms : List TAtom) (bs : List TBlock)
    (ls : List Line) : Prop :=
  (∃ m, PhononFile nAtoms nBr nQ cell atoms (bs.take m) ls) ∨
  ∃ fin, PhononFile nAtoms nBr nQ cell atoms [] (ls ++ [fin])

omit hflt in
/-- **C97**: a header without a line 'Unit cell vectors' is searched for ever. -/
theorem C97_no_cell_never_ends [Field K] {h0 h1 h2 h3 : Line} {rest : List Line} {nAtoms nBr nQ : Nat} (c1 : IsCount nAtoms h1)
    (c2 : IsCount nBr h2) (c3 : IsCount nQ h3) (hs : ∀ l ∈ rest, ¬ "Unit cell vectors".toList <:+: l) (re av pr : Bool) :
    readPhonon flt re av pr (h0 :: h1 :: h2 :: h3 :: rest) = none := by
  have e1 : phononHeader (h0 :: h1 :: h2 :: h3 :: rest) = .ok (nAtoms, nBr, nQ) := by
    simp only [phononHeader, List.getD_cons_succ, List.getD_cons_zero, lastInt_count c1,
      lastInt_count c2, lastInt_count c3]
    rfl
  unfold readPhonon
  rw [e1]
  simp only [List.drop_succ_cons, List.drop_zero, skipToCell_none hs]

omit hflt in
theorem head_cut [Field K] {nAtoms nBr nQ : Nat} {hd : List Line} (h : HeadLines nAtoms nBr nQ hd) {k : Nat}
    (hk : k < hd.length) (re av pr : Bool) {r} : readPhonon flt re av pr (hd.take k) ≠ some (.ok r) := by
  obtain ⟨h0, h1, h2, h3, skip, lab, rfl, c1, c2, c3, hs, hl⟩ := h
  by_cases h4 : 4 ≤ k
  · obtain ⟨j, rfl⟩ := Nat.exists_eq_add_of_le' h4
    simp only [List.take_succ_cons]
    rw [C97_no_cell_never_ends c1 c2 c3]
    · simp
    · intro l hl
      refine hs l ?_
      rw [List.take_append_of_le_length (by simp at hk; omega)] at hl
      exact List.mem_of_mem_take hl
  · intro hc
    have : ∀ v, phononHeader ((h0 :: h1 :: h2 :: h3 :: (skip ++ [lab])).take k) ≠ .ok v := by
      intro v hv
      unfold phononHeader at hv
      obtain ⟨_, a1, hv⟩ := bind_ok hv
      obtain ⟨_, a2, hv⟩ := bind_ok hv
      obtain ⟨_, a3, hv⟩ := bind_ok hv
      rw [List.getD_eq_default _ _ (by simp only [List.length_take]; omega)] at a3
      simp [lastInt, words, wordsAux] at a3
    unfold readPhonon at hc
    cases hh : phononHeader ((h0 :: h1 :: h2 :: h3 :: (skip ++ [lab])).take k) with
    | ok v => exact this v hh
    | error e => rw [hh] at hc; simp at hc

omit hflt in
/-- A prefix of blocks: some blocks and a part of another one. -/
theorem blocks_prefix {nAtoms nBr : Nat} {bs : List TBlock} {lss : List (List Line)}
    (h : List.Forall₂ (BlockLines nAtoms nBr) bs lss) (k : Nat) :
    ∃ m part, lss.flatten.take k = (lss.take m).flatten ++ part ∧ (part = [] ∨
      part.headD [] ≠ [] ∧ part.length < 3 + nBr + nAtoms * nBr) := by
  induction h generalizing k with
  | nil => exact ⟨0, [], by simp, .inl rfl⟩
  | @cons b ls bs lss h1 _ ih =>
    by_cases hk : ls.length ≤ k
    · obtain ⟨m, part, e, hp⟩ := ih (k - ls.length)
      refine ⟨m + 1, part, ?_, hp⟩
      rw [List.flatten_cons, List.take_append, List.take_of_length_le hk, e, List.take_succ_cons, List.flatten_cons,
        List.append_assoc]
    · refine ⟨0, ls.take k, ?_, ?_⟩
      · rw [List.flatten_cons, List.take_append_of_le_length (by omega)]
        rfl
      · obtain ⟨ql, fl, lab1, lab2, el, rfl, q1, q2, q3, q4, q5, q6, q7, q8⟩ := h1
        cases k with
        | zero => exact .inl rfl
        | succ k =>
          right
          constructor
          · simpa using qline_ne_nil q1
          · have l1 := q5.length_eq
            have l2 := q8.length_eq
            rw [flatten_length _ _ q7, q6, Nat.mul_comm] at l2
            simp only [List.length_cons, List.length_append] at hk
            rw [List.length_take]
            omega

/-- **C97**: of the beginnings of a file only those are accepted, with eigenvectors, that end with a block (or with the header);
a file cut inside a block is never taken for a complete one. -/
theorem C97_cut_partial [Field K] {nAtoms nBr nQ : Nat} (hpos : 0 < nAtoms * nBr) {cell : List (List (List Char))}
    {atoms : List TAtom} {bs : List TBlock} {ls : List Line} (h : PhononFile nAtoms nBr nQ cell atoms bs ls) (av pr : Bool)
    (k : Nat) {r} (hr : readPhonon flt true av pr (ls.take k) = some (.ok r)) :
    AtBoundary nAtoms nBr nQ cell atoms bs (ls.take k) := by
  obtain ⟨hd, cr, lss, rfl, h1, h2, h3⟩ := h
  have hA : 0 < nAtoms := Nat.pos_of_mul_pos_right hpos
  by_cases hk : k < hd.length
  · rw [List.take_append_of_le_length (by omega)] at hr
    exact absurd hr (head_cut h1 hk true av pr)
  rw [List.take_append, List.take_of_length_le (by omega)] at hr ⊢
  rw [readPhonon_head h1] at hr
  simp only [Option.some.injEq] at hr
  generalize k - hd.length = j at hr ⊢
  by_cases hj : j < cr.length
  · rw [List.take_append_of_le_length (by omega)] at hr ⊢
    unfold phononBody at hr
    obtain ⟨c, hc, _⟩ := bind_ok hr
    have : ¬ (cr.take j).length < 4 + nAtoms := fun hlt => crystalInfo_short hA hlt c hc
    obtain ⟨cl, lab, al, fin, rfl, q1, q2, q3, q4⟩ := h2
    have l1 := q3.length_eq
    have l2 := q4.length_eq
    have e : (cl ++ lab :: (al ++ [fin])).take j = cl ++ lab :: al := by
      have e1 : cl ++ lab :: (al ++ [fin]) = (cl ++ lab :: al) ++ [fin] := by simp
      have e2 : j = (cl ++ lab :: al).length := by
        simp only [List.length_take, List.length_append, List.length_cons, List.length_nil] at this hj ⊢
        omega
      rw [e1, e2, List.take_left]
    right
    refine ⟨fin, hd, cl ++ lab :: (al ++ [fin]), [], ?_, h1, ⟨cl, lab, al, fin, rfl, q1, q2, q3, q4⟩, .nil⟩
    rw [e]
    simp
  · rw [List.take_append, List.take_of_length_le (by omega)] at hr ⊢
    obtain ⟨m, part, e, hp⟩ := blocks_prefix h3 (j - cr.length)
    rw [e] at hr ⊢
    have h3m : List.Forall₂ (BlockLines nAtoms nBr) (bs.take m) (lss.take m) := List.forall₂_take m h3
    rcases hp with rfl | ⟨hp1, hp2⟩
    · left
      exact ⟨m, hd, cr, lss.take m, by simp, h1, h2, h3m⟩
    · exfalso
      unfold phononBody at hr
      rw [crystalInfo_lines hflt h2] at hr
      obtain ⟨c, hc, hr⟩ := bind_ok hr
      obtain rfl := (Except.ok.inj hc)
      obtain ⟨t, ht, _⟩ := bind_ok hr
      have hb := blocks_length h3m
      obtain ⟨n, hn⟩ : ∃ n, ((lss.take m).flatten ++ part).length + 1 = (n + 1) + (bs.take m).length :=
        ⟨((lss.take m).flatten ++ part).length - (bs.take m).length, by rw [List.length_append]; omega⟩
      simp only at ht
      rw [hn, phononBlocks_blocks hflt hpos h3m] at ht
      obtain ⟨u, hu, _⟩ := bind_ok ht
      exact phononBlocks_short hpos hp1 hp2 u hu

/-- **C97**: blocks followed by a part of another one are refused, if the eigenvectors are wanted. -/
theorem C97_cut_inside [Field K] {nAtoms nBr nQ : Nat} (hpos : 0 < nAtoms * nBr) {cell : List (List (List Char))}
    {atoms : List TAtom} {bs : List TBlock} {ls : List Line} (h : PhononFile nAtoms nBr nQ cell atoms bs ls)
    {b : TBlock} {lb : List Line} (hb : BlockLines nAtoms nBr b lb) (av pr : Bool) (k : Nat) (hk0 : 0 < k)
    (hk : k < lb.length) : ∃ e, readPhonon flt true av pr (ls ++ lb.take k) = some (.error e) := by
  obtain ⟨hd, cr, lss, rfl, h1, h2, h3⟩ := h
  obtain ⟨ql, fl, lab1, lab2, el, rfl, q1, q2, q3, q4, q5, q6, q7, q8⟩ := hb
  obtain ⟨k, rfl⟩ := Nat.exists_eq_succ_of_ne_zero (by omega : k ≠ 0)
  have hp1 : ((ql :: (fl ++ lab1 :: lab2 :: el)).take (k + 1)).headD [] ≠ [] := by simpa using qline_ne_nil q1
  have hp2 : ((ql :: (fl ++ lab1 :: lab2 :: el)).take (k + 1)).length < 3 + nBr + nAtoms * nBr := by
    have l1 := q5.length_eq
    have l2 := q8.length_eq
    rw [flatten_length _ _ q7, q6, Nat.mul_comm] at l2
    simp only [List.length_cons, List.length_append] at hk
    rw [List.length_take]
    omega
  simp only [Nat.succ_eq_add_one]
  generalize (ql :: (fl ++ lab1 :: lab2 :: el)).take (k + 1) = part at hp1 hp2
  rw [List.append_assoc, readPhonon_head h1, List.append_assoc]
  cases hr : phononBody flt true av pr nAtoms nBr nQ (cr ++ (lss.flatten ++ part)) with
  | error e => exact ⟨e, rfl⟩
  | ok r =>
    exfalso
    unfold phononBody at hr
    rw [crystalInfo_lines hflt h2] at hr
    obtain ⟨c, hc, hr⟩ := bind_ok hr
    obtain rfl := (Except.ok.inj hc)
    obtain ⟨t, ht, _⟩ := bind_ok hr
    have hb := blocks_length h3
    obtain ⟨n, hn⟩ : ∃ n, (lss.flatten ++ part).length + 1 = (n + 1) + bs.length :=
      ⟨(lss.flatten ++ part).length - bs.length, by rw [List.length_append]; omega⟩
    simp only at ht
    rw [hn, phononBlocks_blocks hflt hpos h3] at ht
    obtain ⟨u, hu, _⟩ := bind_ok ht
    exact phononBlocks_short hpos hp1 hp2 u hu

/-- **C97** (violation): a file that ends with a block before the announced number is reached is accepted, with rows of zeros
for the q-points that are missing. -/
theorem C97_boundary_accepted [Field K] {nAtoms nBr nQ : Nat} (hpos : 0 < nAtoms * nBr) {cell : List (List (List Char))}
    {atoms : List TAtom} {bs : List TBlock} {ls : List Line} (h : PhononFile nAtoms nBr nQ cell atoms bs ls)
    (hn : bs.length < nQ) (re av : Bool) :
    ∃ ws es, readPhonon flt re av false ls = some (.ok (crystalData val cell atoms,
      (bs.map fun b => b.q.map val) ++ List.replicate (nQ - bs.length) (List.replicate 3 0), ws,
      (bs.map fun b => b.freqs.map val) ++ List.replicate (nQ - bs.length) (List.replicate nBr 0), es)) ∧
    ws.length = nQ := by
  rw [C97_blocks hflt hpos h]
  unfold assemble
  let zq : Zero (List K) := ⟨List.replicate 3 0⟩
  let zf : Zero (List K) := ⟨List.replicate nBr 0⟩
  let ze : Zero (List (List (List (K × K)))) := ⟨List.replicate nBr (List.replicate nAtoms (List.replicate 3 (0, 0)))⟩
  obtain ⟨-, hok⟩ := @Phonon.readBlocks_eq K (List K) (List K) (List (List (List (K × K)))) _ zq zf ze nQ re av false
    (bs.map (TBlock.data val re))
  have hok := hok (by rintro ⟨q, hq, _⟩; cases hq)
  obtain ⟨r1, r2, r3, r4, -⟩ := @Phonon.C60_rows K (List K) (List K) (List (List (List (K × K)))) _ zq zf ze nQ re av false
    (bs.map (TBlock.data val re)) _ _ _ _ hok
  generalize hws : List.mapIdx (Phonon.newWeight av false (List.map (TBlock.data val re) bs))
    (List.map (TBlock.data val re) bs) ++ List.replicate (nQ - (List.map (TBlock.data val re) bs).length) 0 = ws
    at hok r4
  generalize (if re = true then some (Phonon.rowsOf nQ (List.map (TBlock.data val re) bs) fun x => x.evecs)
    else none) = es at hok r3
  rw [List.length_map] at r4
  refine ⟨ws, es, ?_, by omega⟩
  rw [hok, r1, r2]
  simp only [List.map_map, List.length_map]
  rfl

/-- **C97** (violation): without eigenvectors, a file cut anywhere in the eigenvectors of its last block is accepted as if it
were complete. -/
theorem C97_cut_eigenvectors_accepted [Field K] {nAtoms nBr nQ : Nat} (hpos : 0 < nAtoms * nBr) {cell : List (List (List Char))}
    {atoms : List TAtom} {bs : List TBlock} {b : TBlock} {ls : List Line}
    (h : PhononFile nAtoms nBr nQ cell atoms (bs ++ [b]) ls) (av pr : Bool) (k : Nat)
    (hk : ls.length ≤ k + (2 + nAtoms * nBr)) :
    readPhonon flt false av pr (ls.take k) = readPhonon flt false av pr ls := by
  rw [C97_blocks hflt hpos h]
  obtain ⟨hd, cr, lss, rfl, h1, h2, h3⟩ := h
  obtain ⟨lss0, l1, h4, h5, rfl⟩ : ∃ lss0 l1, List.Forall₂ (BlockLines nAtoms nBr) bs lss0 ∧ BlockLines nAtoms nBr b l1 ∧
      lss = lss0 ++ [l1] := by
    refine ⟨lss.take bs.length, (lss.drop bs.length).headD [], ?_, ?_, ?_⟩
    · simpa using List.forall₂_take bs.length h3
    · have := List.forall₂_drop bs.length h3
      rw [List.drop_left] at this
      cases hd : lss.drop bs.length with
      | nil => rw [hd] at this; cases this
      | cons x t =>
        rw [hd] at this
        cases this with
        | cons h _ => simpa using h
    · have := List.forall₂_drop bs.length h3
      rw [List.drop_left] at this
      cases hd : lss.drop bs.length with
      | nil => rw [hd] at this; cases this
      | cons x t =>
        rw [hd] at this
        cases this with
        | cons _ ht =>
          cases ht
          rw [List.headD_cons, ← hd, List.take_append_drop]
  obtain ⟨ql, fl, lab1, lab2, el, rfl, q1, q2, q3, q4, q5, q6, q7, q8⟩ := h5
  have l1 := q5.length_eq
  have l2 := q8.length_eq
  rw [flatten_length _ _ q7, q6, Nat.mul_comm] at l2
  obtain ⟨tl, ht⟩ : ∃ tl, (hd ++ (cr ++ (lss0 ++ [ql :: (fl ++ lab1 :: lab2 :: el)]).flatten)).take k =
      hd ++ (cr ++ (lss0.flatten ++ ql :: (fl ++ tl))) ∧ tl.length ≤ 2 + nAtoms * nBr := by
    refine ⟨(lab1 :: lab2 :: el).take (k - (hd ++ (cr ++ (lss0.flatten ++ ql :: fl))).length), ?_, ?_⟩
    · have e : hd ++ (cr ++ (lss0 ++ [ql :: (fl ++ lab1 :: lab2 :: el)]).flatten) =
          (hd ++ (cr ++ (lss0.flatten ++ ql :: fl))) ++ lab1 :: lab2 :: el := by simp
      rw [e] at hk ⊢
      rw [List.take_append, List.take_of_length_le]
      · simp
      · rw [List.length_append] at hk
        simp only [List.length_cons] at hk ⊢
        omega
    · rw [List.length_take]
      simp only [List.length_cons]
      omega
  obtain ⟨ht, htl⟩ := ht
  rw [ht, readPhonon_head h1]
  unfold phononBody
  rw [crystalInfo_lines hflt h2]
  have hb := blocks_length h4
  obtain ⟨n, hn⟩ : ∃ n, (lss0.flatten ++ ql :: (fl ++ tl)).length + 1 = (n + 1 + 1) + bs.length :=
    ⟨(lss0.flatten ++ (fl ++ tl)).length - bs.length, by simp only [List.length_append, List.length_cons]; omega⟩
  have key := phononBlocks_blocks hflt hpos h4 false (n + 1 + 1) (ql :: (fl ++ tl))
  have key2 : phononBlocks flt false nAtoms nBr (n + 1 + 1) (ql :: (fl ++ tl)) = .ok [b.data val false] := by
    rw [phononBlocks]
    unfold readBlock
    simp only [List.headD_cons, List.drop_succ_cons, List.drop_zero]
    rw [if_neg (qline_ne_nil q1), blockBody_lines hflt q1 q2 q3 q4 q5]
    have : tl.drop (2 + nAtoms * nBr) = [] := List.drop_of_length_le htl
    simp only [bind, Except.bind, pure, Except.pure, blockEvecs, Bool.false_eq_true, if_false, this, phononBlocks, readBlock,
      List.headD_nil, if_true]
    rfl
  simp only [bind, Except.bind, hn] at key ⊢
  rw [key, key2]
  simp only [pure, Except.pure, List.map_append, List.map_cons, List.map_nil]

end read

/-! ## A file -/

/-- Words with a blank before each, and the end of the line. -/
def printLine (ts : List String) : Line := (ts.flatMap fun t => ' ' :: t.toList) ++ ['\n']

instance (t : List Char) : Decidable (IsWord t) := inferInstanceAs (Decidable (_ ∧ _))

theorem isLine_print (t : String) (ts : List String) (h : ∀ t' ∈ t :: ts, IsWord t'.toList) :
    IsLine ((t :: ts).map String.toList) (printLine (t :: ts)) := by
  refine ⟨?_, 1, t.toList, ts.map fun t => (0, t.toList), 0, ?_, ?_⟩
  · intro t' ht'
    obtain ⟨u, hu, rfl⟩ := List.mem_map.1 ht'
    exact h u hu
  · simp
  · simp [printLine, columns, blanks, List.flatMap_map]

/-- The line that begins a block. -/
def printQ (id : Nat) (nums : List String) : Line :=
  ' ' :: "q-pt=".toList ++ ' ' :: Nat.toDigits 10 id ++ (nums.flatMap fun t => ' ' :: t.toList) ++ ['\n']

theorem isQLine_print (id : Nat) (nums : List String) (h : ∀ t ∈ nums, IsFixed t.toList) :
    IsQLine id (nums.map String.toList) (printQ id nums) := by
  refine ⟨?_, 1, 1, nums.map fun t => (0, t.toList), 0, ?_, ?_⟩
  · intro t' ht'
    obtain ⟨u, hu, rfl⟩ := List.mem_map.1 ht'
    exact h u hu
  · simp
  · simp [printQ, columns, blanks, List.flatMap_map]

theorem fixed_sample : ∀ t ∈ ["0.0", "0.5", "-0.25", "1.0"], IsFixed t.toList := by
  have hd : ∀ t ∈ ["0", "5", "25", "1"], ∀ c ∈ t.toList, c.isDigit = true := by decide
  intro t ht
  simp only [List.mem_cons, List.not_mem_nil, or_false] at ht
  rcases ht with rfl | rfl | rfl | rfl
  · exact ⟨false, "0".toList, "0".toList, by decide, by decide, hd _ (by decide), hd _ (by decide), by decide⟩
  · exact ⟨false, "0".toList, "5".toList, by decide, by decide, hd _ (by decide), hd _ (by decide), by decide⟩
  · exact ⟨true, "0".toList, "25".toList, by decide, by decide, hd _ (by decide), hd _ (by decide), by decide⟩
  · exact ⟨false, "1".toList, "0".toList, by decide, by decide, hd _ (by decide), hd _ (by decide), by decide⟩

/-- The header of a file with two atoms, two branches and two blocks, ... -/
def sampleHead : List Line :=
  [printLine ["BEGIN", "header"], printLine ["Number", "of", "ions", "2"], printLine ["Number", "of", "branches", "2"],
    printLine ["Number", "of", "wavevectors", "2"], printLine ["Frequencies", "in", "cm-1"],
    printLine ["Unit", "cell", "vectors", "(A)"]]

/-- ... its crystal, ... -/
def sampleCrystal : List Line :=
  [printLine ["3.0", "0.0", "0.0"], printLine ["0.0", "4.0", "0.0"], printLine ["0.0", "0.0", "5.0"],
    printLine ["Fractional", "Co-ordinates"], printLine ["1", "0.0", "0.25", "0.5", "Si", "28.1"],
    printLine ["2", "0.75", "0.0", "0.5", "O", "16.0"], printLine ["END", "header"]]

/-- ... the lines of the eigenvectors, ... -/
def sampleEvecLines : List Line :=
  [printLine ["1", "1", "0.1", "0.2", "0.3", "0.4", "0.5", "0.6"],
    printLine ["1", "2", "1.1", "1.2", "1.3", "1.4", "1.5", "1.6"],
    printLine ["2", "1", "2.1", "2.2", "2.3", "2.4", "2.5", "2.6"],
    printLine ["2", "2", "3.1", "3.2", "3.3", "3.4", "3.5", "3.6"]]

/-- ... its first block, which has a direction, ... -/
def sampleLines1 : List Line :=
  printQ 1 ["0.0", "0.5", "-0.25", "0.5", "1.0", "0.0", "0.0"] :: ([printLine ["1", "12.5", "0.0"],
    printLine ["2", "13.5", "0.0"]] ++ printLine ["Phonon", "Eigenvectors"] :: printLine ["Mode", "Ion", "X", "Y", "Z"] ::
    sampleEvecLines)

/-- ... its second block. -/
def sampleLines2 : List Line :=
  printQ 12 ["0.5", "0.5", "0.5", "0.5"] :: ([printLine ["1", "22.5"], printLine ["2", "23.5"]] ++
    printLine ["Phonon", "Eigenvectors"] :: printLine ["Mode", "Ion", "X", "Y", "Z"] :: sampleEvecLines)

/-- The file. -/
def sampleFile : List Line := sampleHead ++ (sampleCrystal ++ [sampleLines1, sampleLines2].flatten)

/-- Its eigenvectors. -/
def sampleEvecs : List (List (List (List Char))) :=
  [[["0.1", "0.2", "0.3", "0.4", "0.5", "0.6"].map String.toList, ["1.1", "1.2", "1.3", "1.4", "1.5", "1.6"].map String.toList],
   [["2.1", "2.2", "2.3", "2.4", "2.5", "2.6"].map String.toList, ["3.1", "3.2", "3.3", "3.4", "3.5", "3.6"].map String.toList]]

/-- Its first block. -/
def sampleBlock1 : TBlock :=
  ⟨1, ["0.0", "0.5", "-0.25"].map String.toList, "0.5".toList, some (["1.0", "0.0", "0.0"].map String.toList),
    ["12.5", "13.5"].map String.toList, sampleEvecs⟩

/-- Its second block. -/
def sampleBlock2 : TBlock :=
  ⟨12, ["0.5", "0.5", "0.5"].map String.toList, "0.5".toList, none, ["22.5", "23.5"].map String.toList, sampleEvecs⟩

/-- Its atoms. -/
def sampleAtoms : List TAtom :=
  [⟨["0.0", "0.25", "0.5"].map String.toList, "Si".toList, "28.1".toList⟩,
   ⟨["0.75", "0.0", "0.5"].map String.toList, "O".toList, "16.0".toList⟩]

/-- Its cell. -/
def sampleCell : List (List (List Char)) :=
  [["3.0", "0.0", "0.0"].map String.toList, ["0.0", "4.0", "0.0"].map String.toList, ["0.0", "0.0", "5.0"].map String.toList]

theorem sampleEvecs_layout : List.Forall₂ (fun (r : List (List Char)) l => r.length = 6 ∧ ∃ m i, IsLine (m :: i :: r) l)
    sampleEvecs.flatten sampleEvecLines := by
  refine .cons ⟨rfl, "1".toList, "1".toList, isLine_print "1" ["1", "0.1", "0.2", "0.3", "0.4", "0.5", "0.6"] (by decide)⟩ ?_
  refine .cons ⟨rfl, "1".toList, "2".toList, isLine_print "1" ["2", "1.1", "1.2", "1.3", "1.4", "1.5", "1.6"] (by decide)⟩ ?_
  refine .cons ⟨rfl, "2".toList, "1".toList, isLine_print "2" ["1", "2.1", "2.2", "2.3", "2.4", "2.5", "2.6"] (by decide)⟩ ?_
  refine .cons ⟨rfl, "2".toList, "2".toList, isLine_print "2" ["2", "3.1", "3.2", "3.3", "3.4", "3.5", "3.6"] (by decide)⟩ ?_
  exact .nil

theorem sampleHead_layout : HeadLines 2 2 2 sampleHead := by
  refine ⟨_, _, _, _, [_], _, rfl, ?_, ?_, ?_, ?_, ?_⟩
  · exact ⟨["Number", "of", "ions"].map String.toList, isLine_print "Number" ["of", "ions", "2"] (by decide)⟩
  · exact ⟨["Number", "of", "branches"].map String.toList, isLine_print "Number" ["of", "branches", "2"] (by decide)⟩
  · exact ⟨["Number", "of", "wavevectors"].map String.toList, isLine_print "Number" ["of", "wavevectors", "2"] (by decide)⟩
  · intro l hl
    rw [List.mem_singleton.1 hl, ← contains_iff]
    decide
  · rw [← contains_iff]
    decide

theorem sampleCrystal_layout : CrystalLines 2 sampleCell sampleAtoms sampleCrystal := by
  refine ⟨[_, _, _], _, [_, _], _, rfl, rfl, rfl, ?_, ?_⟩
  · exact .cons ⟨rfl, isLine_print _ _ (by decide)⟩ (.cons ⟨rfl, isLine_print _ _ (by decide)⟩
      (.cons ⟨rfl, isLine_print _ _ (by decide)⟩ .nil))
  · exact .cons ⟨rfl, "1".toList, isLine_print "1" ["0.0", "0.25", "0.5", "Si", "28.1"] (by decide)⟩ (.cons ⟨rfl, "2".toList,
      isLine_print "2" ["0.75", "0.0", "0.5", "O", "16.0"] (by decide)⟩ .nil)

theorem sampleLines1_layout : BlockLines 2 2 sampleBlock1 sampleLines1 := by
  refine ⟨_, [_, _], _, _, _, rfl, ?_, rfl, ?_, rfl, ?_, rfl, by decide, sampleEvecs_layout⟩
  · refine isQLine_print 1 ["0.0", "0.5", "-0.25", "0.5", "1.0", "0.0", "0.0"] fun t ht => fixed_sample t ?_
    revert t
    decide
  · intro d hd
    cases hd
    rfl
  · exact .cons ⟨"1".toList, ["0.0".toList], isLine_print "1" ["12.5", "0.0"] (by decide)⟩
      (.cons ⟨"2".toList, ["0.0".toList], isLine_print "2" ["13.5", "0.0"] (by decide)⟩ .nil)

theorem sampleLines2_layout : BlockLines 2 2 sampleBlock2 sampleLines2 := by
  refine ⟨_, [_, _], _, _, _, rfl, ?_, rfl, ?_, rfl, ?_, rfl, by decide, sampleEvecs_layout⟩
  · refine isQLine_print 12 ["0.5", "0.5", "0.5", "0.5"] fun t ht => fixed_sample t ?_
    revert t
    decide
  · intro d hd
    cases hd
  · exact .cons ⟨"1".toList, [], isLine_print "1" ["22.5"] (by decide)⟩
      (.cons ⟨"2".toList, [], isLine_print "2" ["23.5"] (by decide)⟩ .nil)

/-- The file has the layout of the theorems. -/
theorem sampleFile_layout : PhononFile 2 2 2 sampleCell sampleAtoms [sampleBlock1, sampleBlock2] sampleFile :=
  ⟨_, _, _, rfl, sampleHead_layout, sampleCrystal_layout, .cons sampleLines1_layout (.cons sampleLines2_layout .nil)⟩

/-- The theorems apply to the file (with any reading of the numbers). -/
example (val : List Char → ℚ) : ∃ ws, readPhonon (fun t => .ok (val t)) true true false sampleFile =
    some (.ok (crystalData val sampleCell sampleAtoms, [sampleBlock1, sampleBlock2].map fun b => b.q.map val, ws,
      [sampleBlock1, sampleBlock2].map fun b => b.freqs.map val,
      some ([sampleBlock1, sampleBlock2].map fun b => b.evecs.map fun e => e.map (triple val)))) ∧
    ws = [val "0.5".toList, val "0.5".toList] := by
  obtain ⟨ws, h1, -, h3⟩ := C97_read (flt := fun t => .ok (val t)) (val := val) (fun _ _ => rfl) (by decide)
    sampleFile_layout (by decide) true true
  refine ⟨ws, h1, h3 (.inr ?_)⟩
  intro i b c hb hc
  match i with
  | 0 => cases hb; cases hc; decide
  | 1 => cases hc
  | i + 2 => cases hb

/-- A cut inside its second block is refused, ... -/
example (val : List Char → ℚ) (k : Nat) (h1 : 22 < k) (h2 : k < 31) :
    ∃ e, readPhonon (fun t => .ok (val t)) true true false (sampleFile.take k) = some (.error e) := by
  obtain ⟨j, rfl⟩ : ∃ j, k = 22 + j := ⟨k - 22, by omega⟩
  have e : sampleFile.take (22 + j) = (sampleHead ++ (sampleCrystal ++ [sampleLines1].flatten)) ++ sampleLines2.take j := by
    have : sampleFile = (sampleHead ++ (sampleCrystal ++ [sampleLines1].flatten)) ++ sampleLines2 := by simp [sampleFile]
    rw [this, List.take_append, List.take_of_length_le (by simp [sampleHead, sampleCrystal, sampleLines1, sampleEvecLines])]
    congr 2
    simp [sampleHead, sampleCrystal, sampleLines1, sampleEvecLines]
  rw [e]
  exact C97_cut_inside (flt := fun t => .ok (val t)) (val := val) (fun _ _ => rfl) (by decide)
    ⟨_, _, _, rfl, sampleHead_layout, sampleCrystal_layout, .cons sampleLines1_layout .nil⟩ sampleLines2_layout true false j
    (by omega) (by simp [sampleLines2, sampleEvecLines]; omega)

/-- ... but not without eigenvectors. -/
example (val : List Char → ℚ) : readPhonon (fun t => .ok (val t)) false true false (sampleFile.take 26) =
    readPhonon (fun t => .ok (val t)) false true false sampleFile :=
  C97_cut_eigenvectors_accepted (flt := fun t => .ok (val t)) (val := val) (fun _ _ => rfl) (by decide)
    (bs := [sampleBlock1]) sampleFile_layout true false 26 (by decide)

end Euphonic.CastepText
