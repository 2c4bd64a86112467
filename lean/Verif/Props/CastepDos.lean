import Verif.Model.CastepDos
import Verif.Props.CastepText
import Mathlib.Data.List.Nodup
import Mathlib.Data.List.Perm.Basic

/-!
# C98: `.phonon_dos` files are read back exactly
-/

set_option autoImplicit false

namespace Euphonic.CastepText

/-! ## Layout -/

/-- A block of gradients: index, q-point, weight, direction, and for each branch frequency and gradient. -/
structure GBlock where
  id : Nat
  q : List (List Char)
  w : List Char
  dir : Option (List (List Char))
  modes : List (List Char × List Char)

/-- The lines of a block: the q-point line and for each branch a line with index, frequency (one more column if there is a
direction) and gradient. -/
def GradLines (nBr : Nat) (b : GBlock) (ls : List Line) : Prop :=
  ∃ ql fl, ls = ql :: fl ∧ IsQLine b.id (b.q ++ b.w :: b.dir.getD []) ql ∧ b.q.length = 3 ∧ (∀ d ∈ b.dir, d.length = 3) ∧
    b.modes.length = nBr ∧
    List.Forall₂ (fun m l => ∃ i rest, if b.dir = none then IsLine (i :: m.1 :: m.2 :: rest) l
      else ∃ x, IsLine (i :: m.1 :: x :: m.2 :: rest) l) b.modes fl

/-- The beginning of a `.phonon_dos` file. -/
def DosHead (nAtoms nSpecies nBr nBins : Nat) (ls : List Line) : Prop :=
  ∃ h0 h1 h2 h3 h4 skip lab, ls = h0 :: h1 :: h2 :: h3 :: h4 :: (skip ++ [lab]) ∧ IsCount nAtoms h1 ∧ IsCount nSpecies h2 ∧
    IsCount nBr h3 ∧ IsCount nBins h4 ∧ (∀ l ∈ skip, ¬ "Unit cell vectors".toList <:+: l) ∧
    "Unit cell vectors".toList <:+: lab

/-- The species in the order in which they appear among the atoms. -/
def InOrder (types species : List (List Char)) : Prop :=
  species.Nodup ∧ (∀ s, s ∈ species ↔ s ∈ types) ∧
    species.Pairwise fun s t => types.idxOf s < types.idxOf t

/-- A row of the table. -/
structure TRow where
  e : List Char
  total : List Char
  partials : List (List Char)

/-- A line of the table. -/
def RowLine (nSpecies : Nat) (r : TRow) (l : Line) : Prop :=
  r.partials.length = nSpecies ∧ IsLine (r.e :: r.total :: r.partials) l ∧ '#' ∉ l

/-- The line that ends the gradients. -/
def gradientsEnd : Line := " END GRADIENTS\n".toList

theorem gradientsEnd_eq : gradientsEnd = endGradients := rfl

/-- The parts of a `.phonon_dos` file: header, crystal, gradients, table. -/
def DosFile (nAtoms nBr nBins : Nat) (species : List (List Char)) (cell : List (List (List Char))) (atoms : List TAtom)
    (bs : List GBlock) (heading : Line) (rows : List TRow) (ls : List Line) : Prop :=
  ∃ hd cr lab lss tl rest, ls = hd ++ (cr ++ lab :: (lss.flatten ++ gradientsEnd :: heading :: (tl ++ rest))) ∧
    DosHead nAtoms species.length nBr nBins hd ∧ CrystalLines nAtoms cell atoms cr ∧
    List.Forall₂ (GradLines nBr) bs lss ∧ "BEGIN DOS".toList <:+: heading ∧ rows.length = nBins ∧
    List.Forall₂ (RowLine species.length) rows tl ∧ InOrder (atoms.map (·.type)) species

/-! ## Species -/

theorem getD_eq_of_lt {α : Type} {l : List α} {i : Nat} (h : i < l.length) (d : α) : l.getD i d = l[i] :=
  List.getD_eq_getElem _ _ h

theorem idxOf_le_of {l : List (List Char)} {i : Nat} {a : List Char} (h : l[i]? = some a) : l.idxOf a ≤ i := by
  induction l generalizing i with
  | nil => simp at h
  | cons b l ih =>
    rw [List.idxOf_cons]
    by_cases hb : b = a
    · simp [hb]
    · cases i with
      | zero => simp only [List.getElem?_cons_zero, Option.some.injEq] at h; exact absurd h hb
      | succ i =>
        have := ih (i := i) (by simpa using h)
        have hb' : (b == a) = false := by simpa using hb
        simp only [hb', cond_false]
        omega

theorem take_contains_iff (types : List (List Char)) {i : Nat} (h : i < types.length) :
    (types.take i).contains (types.getD i []) = false ↔ types.idxOf (types.getD i []) = i := by
  rw [getD_eq_of_lt h, Bool.eq_false_iff, ne_eq, List.contains_iff_mem]
  constructor
  · intro hn
    have h1 : types.idxOf types[i] ≤ i := idxOf_le_of (by rw [List.getElem?_eq_getElem h])
    rcases Nat.lt_or_eq_of_le h1 with h2 | h2
    · exfalso
      apply hn
      rw [List.mem_take_iff_getElem]
      refine ⟨types.idxOf types[i], by omega, ?_⟩
      exact List.getElem_idxOf _
    · exact h2
  · intro he hm
    rw [List.mem_take_iff_getElem] at hm
    obtain ⟨j, hj, hj2⟩ := hm
    have h1 : types.idxOf types[i] ≤ j := idxOf_le_of (by rw [List.getElem?_eq_getElem (by omega), hj2])
    omega

theorem firstSeen_inOrder (types : List (List Char)) : InOrder types (firstSeen types) := by
  have hord : (firstSeen types).Pairwise fun s t => types.idxOf s < types.idxOf t := by
    unfold firstSeen
    rw [List.pairwise_map]
    have h1 : ((List.range types.length).filter fun i => !(types.take i).contains (types.getD i [])).Pairwise (· < ·) :=
      List.Pairwise.filter _ List.pairwise_lt_range
    refine List.Pairwise.imp_of_mem ?_ h1
    intro i j hi hj hij
    rw [List.mem_filter, List.mem_range, Bool.not_eq_true'] at hi hj
    rw [(take_contains_iff types hi.1).1 hi.2, (take_contains_iff types hj.1).1 hj.2]
    exact hij
  refine ⟨?_, ?_, hord⟩
  · exact List.Pairwise.imp (fun h he => by rw [he] at h; exact lt_irrefl _ h) hord
  · intro s
    unfold firstSeen
    rw [List.mem_map]
    constructor
    · rintro ⟨i, hi, rfl⟩
      rw [List.mem_filter, List.mem_range] at hi
      rw [getD_eq_of_lt hi.1]
      exact List.getElem_mem _
    · intro hs
      have hi := List.idxOf_lt_length_of_mem hs
      have he : types.getD (types.idxOf s) [] = s := by
        rw [getD_eq_of_lt hi]
        exact List.getElem_idxOf _
      refine ⟨types.idxOf s, ?_, he⟩
      rw [List.mem_filter, List.mem_range, Bool.not_eq_true', take_contains_iff types hi, he]
      exact ⟨hi, rfl⟩

theorem inOrder_unique {types a b : List (List Char)} (ha : InOrder types a) (hb : InOrder types b) : a = b := by
  have hp : a.Perm b := (List.perm_ext_iff_of_nodup ha.1 hb.1).2 fun s => by rw [ha.2.1, hb.2.1]
  exact hp.eq_of_pairwise (fun s t _ _ h1 h2 => by omega) ha.2.2 hb.2.2

/-! ## Words of the q-point line -/

theorem words_qline {id : Nat} {nums : List (List Char)} {l : Line} (h : IsQLine id nums l) :
    1 + nums.length ≤ (words l).length ∧ (words l).length ≤ 2 + nums.length := by
  obtain ⟨hf, a, b, cols, k, rfl, rfl⟩ := h
  have hd : ∀ c ∈ Nat.toDigits 10 id, isSpace c = false := fun c hc =>
    digit_ne_blank (Nat.isDigit_of_mem_toDigits (by decide) (by decide) hc)
  have hq : ∀ c ∈ ['q', '-', 'p', 't', '='], isSpace c = false := by decide
  have hw : ∀ p ∈ cols, IsWord p.2 := fun p hp => fixed_isWord (hf p.2 (List.mem_map.2 ⟨p, hp, rfl⟩))
  have e : blanks a ++ ['q', '-', 'p', 't', '='] ++ blanks b ++ Nat.toDigits 10 id ++ columns cols ++ blanks k ++ ['\n']
      = blanks a ++ (['q', '-', 'p', 't', '='] ++ (blanks b ++ (Nat.toDigits 10 id ++
        (columns cols ++ blanks k ++ ['\n'])))) := by simp
  unfold words
  rw [e, wordsAux_blanks, wordsAux_word hq, List.nil_append]
  cases b with
  | zero =>
    simp only [blanks, List.replicate_zero, List.nil_append]
    rw [wordsAux_word hd]
    have := wordsAux_columns cols hw k (cur := ['q', '-', 'p', 't', '='] ++ Nat.toDigits 10 id) (by simp)
    simp only [blanks] at this
    rw [this]
    simp only [List.length_cons, List.length_map]
    omega
  | succ b =>
    rw [wordsAux_end _ _ (by simp), wordsAux_word hd, List.nil_append,
      wordsAux_columns cols hw k Nat.toDigits_ne_nil]
    simp only [List.length_cons, List.length_map]
    omega

/-! ## The file -/

section read
variable {K : Type} {flt : List Char → Except Err K} {val : List Char → K} (hflt : ∀ t, IsWord t → flt t = .ok (val t))

include hflt

/-- What is read from a block. -/
def GBlock.data (val : List Char → K) (b : GBlock) : FBlock K :=
  ⟨b.id, b.q.map val, b.dir, val b.w, b.modes.map fun m => val m.1, some [b.modes.map fun m => val m.2]⟩

theorem dosBlock_lines {nBr : Nat} {b : GBlock} {ls : List Line} (h : GradLines nBr b ls) (rest : List Line) :
    readBlock flt nBr (some [0]) endGradients (ls ++ rest) = .ok (some (b.data val), rest) := by
  obtain ⟨ql, fl, rfl, h1, h2, h3, h4, h5⟩ := h
  have lfl : fl.length = nBr := by rw [← h5.length_eq, h4]
  have hne : ql ≠ endGradients := by
    intro hc
    have := findIndex_qline h1
    rw [hc] at this
    have h0 : findIndex endGradients = none := by decide
    rw [h0] at this
    cases this
  have m0 : qIndex ql = .ok b.id := by simp only [qIndex, findIndex_qline h1, natOf_toDigits]
  have m1 : ((b.q ++ b.w :: b.dir.getD []).take 3).mapM flt = .ok (b.q.map val) := by
    rw [List.take_left' h2]
    exact mapM_ok_of _ fun t ht => hflt t (fixed_isWord (h1.1 t (by simp [ht])))
  have m2 : (b.q ++ b.w :: b.dir.getD [])[3]? = some b.w := by
    rw [List.getElem?_append_right (by omega), h2]
    rfl
  have m3 : (if (b.q ++ b.w :: b.dir.getD []).length ≥ 6 then
      some (((b.q ++ b.w :: b.dir.getD []).drop 4).take 3) else none) = b.dir := by
    have hd : (b.q ++ b.w :: b.dir.getD []).drop 4 = b.dir.getD [] := by
      have : b.q ++ b.w :: b.dir.getD [] = (b.q ++ [b.w]) ++ b.dir.getD [] := by simp
      rw [this]
      exact List.drop_left' (by simp [h2])
    rw [hd]
    cases hdir : b.dir with
    | none => simp [h2]
    | some d =>
      have := h3 d hdir
      simp [h2, this, List.take_of_length_le]
  have m4 : (fl.mapM fun l => do flt (← wordAt l 1)) = .ok (b.modes.map fun m => val m.1) := by
    refine mapM_forall₂ h5 ?_
    rintro m l ⟨i, r, hl⟩
    by_cases hdir : b.dir = none
    · rw [if_pos hdir] at hl
      rw [wordAt_line hl (t := m.1) rfl]
      exact hflt _ (hl.1 _ (by simp))
    · rw [if_neg hdir] at hl
      obtain ⟨x, hl⟩ := hl
      rw [wordAt_line hl (t := m.1) rfl]
      exact hflt _ (hl.1 _ (by simp))
  have m5 : readExtra flt ql fl (some [0]) = .ok (some [b.modes.map fun m => val m.2]) := by
    have hw := words_qline h1
    have key : ∀ c, shiftColumns ql [0] = [c] → (fl.mapM fun l => do flt (← wordAt l (1 + c + 1))) =
        .ok (b.modes.map fun m => val m.2) → readExtra flt ql fl (some [0]) = .ok (some [b.modes.map fun m => val m.2]) := by
      intro c hc hm
      simp only [readExtra, hc, List.mapM_cons, List.mapM_nil]
      rw [hm]
      rfl
    by_cases hdir : b.dir = none
    · refine key 0 ?_ ?_
      · unfold shiftColumns
        rw [if_neg]
        simp only [List.length_append, List.length_cons, hdir, Option.getD_none, List.length_nil] at hw
        omega
      · refine mapM_forall₂ h5 ?_
        rintro m l ⟨i, r, hl⟩
        rw [if_pos hdir] at hl
        rw [wordAt_line hl (t := m.2) rfl]
        exact hflt _ (hl.1 _ (by simp))
    · refine key 1 ?_ ?_
      · obtain ⟨d, hd⟩ := Option.ne_none_iff_exists'.1 hdir
        have := h3 d hd
        unfold shiftColumns
        rw [if_pos]
        · rfl
        simp only [List.length_append, List.length_cons, hd, Option.getD_some] at hw
        omega
      · refine mapM_forall₂ h5 ?_
        rintro m l ⟨i, r, hl⟩
        rw [if_neg hdir] at hl
        obtain ⟨x, hl⟩ := hl
        rw [wordAt_line hl (t := m.2) rfl]
        exact hflt _ (hl.1 _ (by simp))
  unfold readBlock
  simp only [List.cons_append, List.headD_cons, List.drop_succ_cons, List.drop_zero]
  rw [if_neg hne]
  unfold blockBody
  simp only [m0, findFloats_qline h1, readLines_append rest lfl, bind, Except.bind, m1, fieldAt,
    m2, hflt _ (fixed_isWord (h1.1 b.w (by simp)))]
  simp only [bind, Except.bind] at m4
  rw [m4, m3, m5, List.drop_left' lfl]
  rfl

theorem dosBlocks_lines {nBr : Nat} (hBr : nBr ≠ 1) {bs : List GBlock} {lss : List (List Line)}
    (h : List.Forall₂ (GradLines nBr) bs lss) (n : Nat) (rest : List Line) :
    dosBlocks flt nBr (n + 1 + bs.length) (lss.flatten ++ endGradients :: rest) = .ok (bs.map (GBlock.data val), rest) := by
  induction h with
  | nil =>
    simp only [List.flatten_nil, List.nil_append, List.length_nil, Nat.add_zero, dosBlocks, readBlock, List.headD_cons,
      if_true, List.drop_succ_cons, List.drop_zero, List.map_nil]
    rfl
  | @cons b ls bs lss h1 _ ih =>
    rw [List.flatten_cons, List.append_assoc, List.length_cons, ← Nat.add_assoc, dosBlocks, dosBlock_lines hflt h1]
    simp only [bind, Except.bind, if_neg hBr, ih]
    rfl

omit hflt in
theorem rowLine_words {n : Nat} {r : TRow} {l : Line} (h : RowLine n r l) :
    words (l.takeWhile (· ≠ '#')) = r.e :: r.total :: r.partials := by
  have : l.takeWhile (· ≠ '#') = l := by
    have hn := h.2.2
    clear h
    induction l with
    | nil => rfl
    | cons c l ih =>
      have h1 : c ≠ '#' := fun hc => hn (by simp [hc])
      rw [List.takeWhile_cons, if_pos (by simpa using h1), ih fun hc => hn (by simp [hc])]
  rw [this, words_isLine h.2.1]

/-- The numbers of a row. -/
def TRow.nums (val : List Char → K) (r : TRow) : List K := val r.e :: val r.total :: r.partials.map val

theorem loadRows_lines {n : Nat} {rows : List TRow} {tl : List Line} (h : List.Forall₂ (RowLine n) rows tl)
    (rest : List Line) (m : Nat) :
    loadRows flt (rows.length + m) (tl ++ rest) = (do
      let t ← loadRows flt m rest
      return rows.map (TRow.nums val) ++ t) := by
  induction h with
  | nil =>
    simp only [List.length_nil, Nat.zero_add, List.nil_append, List.map_nil]
    cases loadRows flt m rest <;> rfl
  | @cons r l rows tl h1 _ ih =>
    have e : (r :: rows).length + m = (rows.length + m) + 1 := by simp only [List.length_cons]; omega
    rw [e, List.cons_append, loadRows]
    have hw := rowLine_words h1
    rw [if_neg (by rw [hw]; simp), hw]
    have : (r.e :: r.total :: r.partials).mapM flt = .ok (r.nums val) := by
      refine mapM_ok_of _ fun t ht => hflt t (h1.2.1.1 t ht)
    rw [this, ih]
    cases loadRows flt m rest <;> rfl

omit hflt in
theorem column_eq {rows : List (List K)} {i : Nat} {g : List K → K} (h : ∀ r ∈ rows, r[i]? = some (g r)) :
    column rows i = .ok (rows.map g) := by
  unfold column
  refine mapM_ok_of _ ?_
  intro r hr
  simp only [entryAt, h r hr]

omit hflt in
theorem putKey_new {V : Type} (d : List (List Char × V)) (k : List Char) (v : V) (h : k ∉ d.map (·.1)) :
    putKey d k v = d ++ [(k, v)] := by
  unfold putKey
  rw [if_neg]
  rw [List.any_eq_true]
  rintro ⟨p, hp, he⟩
  exact h (List.mem_map.2 ⟨p, hp, by simpa using he⟩)

omit hflt in
theorem speciesDos_eq (rows : List (List K)) (g : Nat → List K → K) (ss : List (List Char)) :
    ∀ (i : Nat) (d : List (List Char × List K)), (∀ j, j < ss.length → ∀ r ∈ rows, r[i + j + 2]? = some (g (i + j) r)) →
      (d.map (·.1) ++ ss).Nodup →
      speciesDos rows i ss d = .ok (d ++ ss.mapIdx fun j s => (s, rows.map (g (i + j)))) := by
  induction ss with
  | nil => intro i d _ _; simp [speciesDos]
  | cons s ss ih =>
    intro i d h1 h2
    have hs : s ∉ d.map (·.1) := by
      intro hc
      exact (List.nodup_append.1 h2).2.2 s hc s (by simp) rfl
    rw [speciesDos, column_eq (fun r hr => h1 0 (by simp) r hr)]
    simp only [bind, Except.bind]
    rw [putKey_new _ _ _ hs]
    rw [ih (i + 1) _ (fun j hj r hr => by
      have := h1 (j + 1) (by simpa using hj) r hr
      rw [show i + 1 + j + 2 = i + (j + 1) + 2 by omega, show i + 1 + j = i + (j + 1) by omega]
      exact this) (by simpa using h2)]
    simp only [List.append_assoc, List.mapIdx_cons, Except.ok.injEq, List.append_cancel_left_eq, List.cons_append,
      List.nil_append, Nat.add_zero]
    congr 2
    funext j t
    rw [show i + 1 + j = i + (j + 1) by omega]

omit hflt in
theorem readDos_head {nAtoms nSp nBr nBins : Nat} {hd : List Line} (h : DosHead nAtoms nSp nBr nBins hd) (rest : List Line) :
    readDos flt (hd ++ rest) = some (dosBody flt nAtoms nBr nBins rest) := by
  obtain ⟨h0, h1, h2, h3, h4, skip, lab, rfl, c1, c2, c3, c4, hs, hl⟩ := h
  have e1 : dosHeader (h0 :: h1 :: h2 :: h3 :: h4 :: (skip ++ [lab]) ++ rest) = .ok (nAtoms, nBr, nBins) := by
    simp only [dosHeader, List.cons_append, List.getD_cons_succ, List.getD_cons_zero, lastInt_count c1,
      lastInt_count c2, lastInt_count c3, lastInt_count c4]
    rfl
  have e2 : skipToCell ((h0 :: h1 :: h2 :: h3 :: h4 :: (skip ++ [lab]) ++ rest).drop 5) = some rest := by
    simp only [List.cons_append, List.drop_succ_cons, List.drop_zero, List.append_assoc, List.nil_append]
    exact skipToCell_skip rest hs hl
  unfold readDos
  rw [e1]
  simp only [e2]

omit hflt in
theorem grad_length {nBr : Nat} {bs : List GBlock} {lss : List (List Line)}
    (h : List.Forall₂ (GradLines nBr) bs lss) : bs.length ≤ lss.flatten.length := by
  induction h with
  | nil => simp
  | @cons b ls bs lss h1 _ ih =>
    obtain ⟨ql, fl, rfl, _⟩ := h1
    simp only [List.length_cons, List.flatten_cons, List.length_append]
    omega

/-- The data of a file. -/
def dosData (val : List Char → K) (species : List (List Char)) (cell : List (List (List Char))) (atoms : List TAtom)
    (bs : List GBlock) (rows : List TRow) : DosData K where
  crystal := crystalData val cell atoms
  qpts := bs.map fun b => b.q.map val
  weights := bs.map fun b => val b.w
  freqs := bs.map fun b => b.modes.map fun m => val m.1
  grads := bs.map fun b => b.modes.map fun m => val m.2
  bins := rows.map fun r => val r.e
  dos := ("Total".toList, rows.map fun r => val r.total) ::
    species.mapIdx fun j s => (s, rows.map fun r => val (r.partials.getD j []))

/-- Everything behind the header: the blocks, and then a table of which `rows` are left. -/
theorem dosBody_lines {nAtoms nBr nBins : Nat} (hBr : nBr ≠ 1) {species : List (List Char)} {cell : List (List (List Char))}
    {atoms : List TAtom} {bs : List GBlock} {rows : List TRow} {cr : List Line} {lab heading : Line} {lss : List (List Line)}
    {tl rest : List Line} (h2 : CrystalLines nAtoms cell atoms cr) (h3 : List.Forall₂ (GradLines nBr) bs lss)
    (h4 : "BEGIN DOS".toList <:+: heading) (h5 : List.Forall₂ (RowLine species.length) rows tl)
    (h6 : InOrder (atoms.map (·.type)) species) (hT : "Total".toList ∉ species) (hrows : 1 < rows.length)
    (hload : loadRows flt nBins (tl ++ rest) = .ok (rows.map (TRow.nums val))) :
    dosBody flt nAtoms nBr nBins (cr ++ lab :: (lss.flatten ++ endGradients :: heading :: (tl ++ rest))) =
      .ok (dosData val species cell atoms bs rows) := by
  have hb := grad_length h3
  have hlen : ∀ r ∈ rows, r.partials.length = species.length := fun r hr => by
    obtain ⟨l, _, hl⟩ := forall₂_left h5 r hr
    exact hl.1
  have t1 : dosTable flt nBins (heading :: (tl ++ rest)) = .ok (rows.map (TRow.nums val)) := by
    unfold dosTable
    simp only [List.headD_cons, (contains_iff _ _).2 h4, if_true, List.drop_succ_cons, List.drop_zero]
    unfold loadTable
    rw [hload]
    have e1 : sameLength (rows.map (TRow.nums val)) = .ok () := by
      refine sameLength_of (n := species.length + 2) ?_
      intro r hr
      obtain ⟨r', hr', rfl⟩ := List.mem_map.1 hr
      simp [TRow.nums, hlen r' hr']
    have e2 : ¬ ((rows.map (TRow.nums val)).length ≤ 1 ∨ ((rows.map (TRow.nums val)).headD []).length ≤ 1) := by
      rw [List.length_map]
      cases rows with
      | nil => simp at hrows
      | cons r t =>
        simp only [List.map_cons, List.headD_cons, TRow.nums, List.length_cons] at hrows ⊢
        omega
    simp only [bind, Except.bind, e1, if_neg e2]
    rfl
  have t2 : column (rows.map (TRow.nums val)) 0 = .ok (rows.map fun r => val r.e) := by
    unfold column
    rw [List.mapM_map]
    exact mapM_ok_of _ fun r _ => rfl
  have t3 : column (rows.map (TRow.nums val)) 1 = .ok (rows.map fun r => val r.total) := by
    unfold column
    rw [List.mapM_map]
    exact mapM_ok_of _ fun r _ => rfl
  have t4 : firstSeen (crystalData val cell atoms).types = species := by
    exact inOrder_unique (firstSeen_inOrder _) h6
  have t5 : speciesDos (rows.map (TRow.nums val)) 0 species [("Total".toList, rows.map fun r => val r.total)] =
      .ok (("Total".toList, rows.map fun r => val r.total) ::
        species.mapIdx fun j s => (s, rows.map fun r => val (r.partials.getD j []))) := by
    rw [speciesDos_eq (rows.map (TRow.nums val)) (fun j r => r.getD (j + 2) (val [])) species 0]
    · simp only [List.cons_append, List.nil_append, Except.ok.injEq, List.cons.injEq, true_and]
      apply List.ext_getElem
      · simp
      · intro j hj1 hj2
        simp only [List.getElem_mapIdx, List.map_map, Nat.zero_add, Prod.mk.injEq, true_and]
        refine List.map_congr_left fun r hr => ?_
        simp only [List.length_mapIdx] at hj1
        have := hlen r hr
        simp only [Function.comp_apply, TRow.nums, List.getD_cons_succ]
        rw [List.getD_eq_getElem _ _ (by simp; omega), List.getD_eq_getElem _ _ (by omega), List.getElem_map]
    · intro j hj r hr
      obtain ⟨r', hr', rfl⟩ := List.mem_map.1 hr
      have := hlen r' hr'
      simp only [TRow.nums, Nat.zero_add, List.getD_cons_succ, List.getElem?_cons_succ]
      rw [List.getD_eq_getElem _ _ (by simp; omega), List.getElem?_eq_getElem (by simp; omega)]
    · simp only [List.map_cons, List.map_nil, List.cons_append, List.nil_append, List.nodup_cons]
      exact ⟨hT, h6.1⟩
  unfold dosBody
  rw [crystalInfo_lines hflt h2]
  obtain ⟨n, hn⟩ : ∃ n, (lab :: (lss.flatten ++ endGradients :: heading :: (tl ++ rest))).length + 1 = n + 1 + bs.length :=
    ⟨(lab :: (lss.flatten ++ endGradients :: heading :: (tl ++ rest))).length - bs.length, by
      simp only [List.length_cons, List.length_append]; omega⟩
  have t6 := dosBlocks_lines hflt hBr h3 n (heading :: (tl ++ rest))
  simp only [bind, Except.bind, hn, List.drop_succ_cons, List.drop_zero, t6, t1, t2, t3, t4, t5]
  simp only [pure, Except.pure, dosData, List.map_map]
  rfl

/-- **C98**: a `.phonon_dos` file is read exactly: crystal, q-points, weights, frequencies, gradients and the columns of the table,
the partial ones under the species in the order of their first atoms. -/
theorem C98_read_partial {nAtoms nBr nBins : Nat} (hBr : nBr ≠ 1) (hBins : 1 < nBins) {species : List (List Char)}
    {cell : List (List (List Char))} {atoms : List TAtom} {bs : List GBlock} {heading : Line} {rows : List TRow} {ls : List Line}
    (hT : "Total".toList ∉ species) (h : DosFile nAtoms nBr nBins species cell atoms bs heading rows ls) :
    readDos flt ls = some (.ok (dosData val species cell atoms bs rows)) := by
  obtain ⟨hd, cr, lab, lss, tl, rest, rfl, h1, h2, h3, h4, hr, h5, h6⟩ := h
  rw [readDos_head h1, gradientsEnd_eq, dosBody_lines hflt hBr h2 h3 h4 h5 h6 hT (by omega)]
  have := loadRows_lines hflt h5 rest 0
  rw [Nat.add_zero, hr] at this
  rw [this]
  simp only [loadRows, bind, Except.bind, pure, Except.pure, List.append_nil]

omit hflt in
/-- **C98**: the spectrum made from a file has the energies of the table and, without an element, the column of the total, and with
an element the column of that species; any other name raises `KeyError`. -/
theorem C98_spectrum {species : List (List Char)} (hT : "Total".toList ∉ species) (hN : species.Nodup)
    (cell : List (List (List Char))) (atoms : List TAtom) (bs : List GBlock) (rows : List TRow) :
    spectrumOfDos (dosData val species cell atoms bs rows) none =
      .ok (rows.map fun r => val r.e, rows.map fun r => val r.total, [("label", "Total".toList)]) ∧
    (∀ (j : Nat) (s : List Char), species[j]? = some s → spectrumOfDos (dosData val species cell atoms bs rows) (some s) =
      .ok (rows.map fun r => val r.e, rows.map fun r => val (r.partials.getD j []), [("species", s), ("label", s)])) ∧
    ∀ s, s ∉ species → s ≠ "Total".toList →
      spectrumOfDos (dosData val species cell atoms bs rows) (some s) = .error .keyError := by
  refine ⟨?_, ?_, ?_⟩
  · simp [spectrumOfDos, lookupKey, dosData, bind, Except.bind, pure, Except.pure]
  · intro j s hs
    have hne : s ≠ "Total".toList := fun he => hT (he ▸ List.mem_of_getElem? hs)
    have hf : (species.mapIdx fun j s => (s, rows.map fun r => val (r.partials.getD j []))).find? (fun p => p.1 = s) =
        some (s, rows.map fun r => val (r.partials.getD j [])) := by
      obtain ⟨hj, he⟩ := List.getElem?_eq_some_iff.1 hs
      rw [List.find?_eq_some_iff_getElem]
      refine ⟨by simp, j, by simpa using hj, by simp [he], ?_⟩
      intro i hi
      simp only [List.getElem_mapIdx, Bool.not_eq_true', decide_eq_false_iff_not]
      intro hc
      have := (List.Nodup.getElem_inj_iff hN (hi := by omega) (hj := hj)).1 (hc.trans he.symm)
      omega
    have hd : decide ("Total".toList = s) = false := by simpa using fun h => hne h.symm
    unfold spectrumOfDos lookupKey
    simp only [dosData, Option.getD_some, List.find?_cons, hd, hf]
    rfl
  · intro s hs hne
    have hf : (species.mapIdx fun j s => (s, rows.map fun r => val (r.partials.getD j []))).find? (fun p => p.1 = s) = none := by
      rw [List.find?_eq_none]
      intro p hp
      obtain ⟨i, hi, rfl⟩ := List.mem_iff_getElem.1 hp
      simp only [List.getElem_mapIdx, decide_eq_true_eq]
      intro hc
      exact hs (hc ▸ List.getElem_mem _)
    have hd : decide ("Total".toList = s) = false := by simpa using fun h => hne h.symm
    unfold spectrumOfDos lookupKey
    simp only [dosData, Option.getD_some, List.find?_cons, hd, hf]
    rfl

omit hflt in
/-- **C98**: the collection made from a file has a line for the total and one for each species, in order, labelled with its name. -/
theorem C98_collection {species : List (List Char)} (hT : "Total".toList ∉ species)
    (cell : List (List (List Char))) (atoms : List TAtom) (bs : List GBlock) (rows : List TRow) :
    collectionOfDos (dosData val species cell atoms bs rows) = (rows.map fun r => val r.e,
      (rows.map fun r => val r.total, [("label", "Total".toList)]) ::
        species.mapIdx fun j s => (rows.map fun r => val (r.partials.getD j []), [("species", s), ("label", s)])) := by
  unfold collectionOfDos dosData
  simp only [List.map_cons, Prod.mk.injEq, true_and, List.cons.injEq]
  refine ⟨by simp, ?_⟩
  apply List.ext_getElem
  · simp
  · intro i h1 h2
    have hi : i < species.length := by simpa using h2
    have : species[i] ≠ "Total".toList := fun he => hT (he ▸ List.getElem_mem _)
    simp only [List.getElem_map, List.getElem_mapIdx]
    rw [if_pos this]
    rfl

/-- **C98** (violation): the heading of the table, which names the columns, is not used: two files that differ in it give the same
data, whatever names it has. -/
theorem C98_heading_ignored {nAtoms nBr nBins : Nat} (hBr : nBr ≠ 1) (hBins : 1 < nBins) {species : List (List Char)}
    {cell : List (List (List Char))} {atoms : List TAtom} {bs : List GBlock} {heading heading' : Line} {rows : List TRow}
    {ls ls' : List Line} (hT : "Total".toList ∉ species)
    (h : DosFile nAtoms nBr nBins species cell atoms bs heading rows ls)
    (h' : DosFile nAtoms nBr nBins species cell atoms bs heading' rows ls') : readDos flt ls = readDos flt ls' := by
  rw [C98_read_partial hflt hBr hBins hT h, C98_read_partial hflt hBr hBins hT h']

/-- **C98** (violation): a file that ends inside its table is accepted with the rows that are left, if there are two at least. -/
theorem C98_cut_table_accepted {nAtoms nBr nBins : Nat} (hBr : nBr ≠ 1) {species : List (List Char)}
    {cell : List (List (List Char))} {atoms : List TAtom} {bs : List GBlock} {hd cr : List Line} {lab heading : Line}
    {lss : List (List Line)} {rows : List TRow} {tl : List Line}
    (h1 : DosHead nAtoms species.length nBr nBins hd) (h2 : CrystalLines nAtoms cell atoms cr)
    (h3 : List.Forall₂ (GradLines nBr) bs lss) (h4 : "BEGIN DOS".toList <:+: heading)
    (h5 : List.Forall₂ (RowLine species.length) rows tl) (h6 : InOrder (atoms.map (·.type)) species)
    (hT : "Total".toList ∉ species) (hrows : 1 < rows.length) (hcut : rows.length ≤ nBins) :
    readDos flt (hd ++ (cr ++ lab :: (lss.flatten ++ gradientsEnd :: heading :: tl))) =
      some (.ok (dosData val species cell atoms bs rows)) := by
  have key := dosBody_lines (rest := []) (nBins := nBins) (lab := lab) hflt hBr h2 h3 h4 h5 h6 hT hrows
  rw [List.append_nil] at key
  rw [readDos_head h1, gradientsEnd_eq, key]
  have := loadRows_lines hflt h5 [] (nBins - rows.length)
  rw [List.append_nil, Nat.add_sub_cancel' hcut] at this
  rw [this]
  have : loadRows flt (nBins - rows.length) [] = .ok [] := by
    cases nBins - rows.length <;> rfl
  rw [this]
  simp only [bind, Except.bind, pure, Except.pure, List.append_nil]

/-- **C98**: a table with fewer rows than announced before its last line is refused (the last line is not a row of numbers). -/
theorem C98_short_table {nAtoms nBr nBins : Nat} (hBr : nBr ≠ 1) {species : List (List Char)}
    {cell : List (List (List Char))} {atoms : List TAtom} {bs : List GBlock} {hd cr : List Line} {lab heading : Line}
    {lss : List (List Line)} {rows : List TRow} {tl rest : List Line} {fin : Line} {t : List Char} {ts : List (List Char)} {e : Err}
    (h1 : DosHead nAtoms species.length nBr nBins hd) (h2 : CrystalLines nAtoms cell atoms cr)
    (h3 : List.Forall₂ (GradLines nBr) bs lss) (h4 : "BEGIN DOS".toList <:+: heading)
    (h5 : List.Forall₂ (RowLine species.length) rows tl) (hcut : rows.length < nBins)
    (hfin : words (fin.takeWhile (· ≠ '#')) = t :: ts) (ht : flt t = .error e) :
    readDos flt (hd ++ (cr ++ lab :: (lss.flatten ++ gradientsEnd :: heading :: (tl ++ fin :: rest)))) = some (.error e) := by
  rw [readDos_head h1, gradientsEnd_eq]
  have hb := grad_length h3
  obtain ⟨n, hn⟩ : ∃ n, (lab :: (lss.flatten ++ endGradients :: heading :: (tl ++ fin :: rest))).length + 1 =
      n + 1 + bs.length :=
    ⟨(lab :: (lss.flatten ++ endGradients :: heading :: (tl ++ fin :: rest))).length - bs.length, by
      simp only [List.length_cons, List.length_append]; omega⟩
  have t6 := dosBlocks_lines hflt hBr h3 n (heading :: (tl ++ fin :: rest))
  have hl := loadRows_lines hflt h5 (fin :: rest) (nBins - rows.length)
  rw [Nat.add_sub_cancel' (by omega)] at hl
  obtain ⟨m, hm⟩ := Nat.exists_eq_succ_of_ne_zero (show nBins - rows.length ≠ 0 by omega)
  have hl2 : loadRows flt (m + 1) (fin :: rest) = .error e := by
    rw [loadRows, hfin]
    simp only [List.mapM_cons, ht]
    rfl
  rw [hm, hl2] at hl
  have t1 : dosTable flt nBins (heading :: (tl ++ fin :: rest)) = .error e := by
    unfold dosTable
    simp only [List.headD_cons, (contains_iff _ _).2 h4, if_true, List.drop_succ_cons, List.drop_zero]
    unfold loadTable
    rw [hl]
    rfl
  unfold dosBody
  rw [crystalInfo_lines hflt h2]
  simp only [bind, Except.bind, hn, List.drop_succ_cons, List.drop_zero, t6, t1]

/-- **C98** (violation): a file with one bin only is refused. -/
theorem C98_one_bin {nAtoms nBr : Nat} (hBr : nBr ≠ 1) {species : List (List Char)}
    {cell : List (List (List Char))} {atoms : List TAtom} {bs : List GBlock} {heading : Line} {rows : List TRow} {ls : List Line}
    (h : DosFile nAtoms nBr 1 species cell atoms bs heading rows ls) :
    readDos flt ls = some (.error .indexError) := by
  obtain ⟨hd, cr, lab, lss, tl, rest, rfl, h1, h2, h3, h4, hr, h5, h6⟩ := h
  rw [readDos_head h1, gradientsEnd_eq]
  have hb := grad_length h3
  obtain ⟨n, hn⟩ : ∃ n, (lab :: (lss.flatten ++ endGradients :: heading :: (tl ++ rest))).length + 1 =
      n + 1 + bs.length :=
    ⟨(lab :: (lss.flatten ++ endGradients :: heading :: (tl ++ rest))).length - bs.length, by
      simp only [List.length_cons, List.length_append]; omega⟩
  have t6 := dosBlocks_lines hflt hBr h3 n (heading :: (tl ++ rest))
  have hl := loadRows_lines hflt h5 rest 0
  rw [Nat.add_zero, hr] at hl
  have t1 : dosTable flt 1 (heading :: (tl ++ rest)) = .error .indexError := by
    unfold dosTable
    simp only [List.headD_cons, (contains_iff _ _).2 h4, if_true, List.drop_succ_cons, List.drop_zero]
    unfold loadTable
    rw [hl]
    match rows, hr with
    | [r], _ => simp [loadRows, sameLength, bind, Except.bind, pure, Except.pure, throw, throwThe, MonadExceptOf.throw]
  unfold dosBody
  rw [crystalInfo_lines hflt h2]
  simp only [bind, Except.bind, hn, List.drop_succ_cons, List.drop_zero, t6, t1]

omit hflt in
theorem dosBlocks_mem {nBr : Nat} : ∀ {n : Nat} {ls : List Line} {r : List (FBlock K) × List Line},
    dosBlocks flt nBr n ls = .ok r → ∃ a, ls = a ++ endGradients :: r.2 := by
  intro n
  induction n with
  | zero => intro ls r h; cases h
  | succ n ih =>
    intro ls r h
    rw [dosBlocks] at h
    obtain ⟨b, h1, h2⟩ := bind_ok h
    unfold readBlock at h1
    dsimp only at h1
    split at h1
    · rename_i he
      obtain rfl := Except.ok.inj h1
      simp only at h2
      obtain rfl := Except.ok.inj h2
      cases ls with
      | nil => cases he
      | cons l ls =>
        simp only [List.headD_cons] at he
        exact ⟨[], by simp [he]⟩
    · obtain ⟨b', h3, h4⟩ := bind_ok h1
      obtain rfl := Except.ok.inj h4
      simp only at h2
      split at h2
      · cases h2
      · obtain ⟨t, h5, h6⟩ := bind_ok h2
        obtain rfl := Except.ok.inj h6
        obtain ⟨a, ha⟩ := ih h5
        have hb : b'.2 = (ls.drop 1).drop nBr := by
          unfold blockBody at h3
          obtain ⟨_, _, h3⟩ := bind_ok h3
          obtain ⟨_, _, h3⟩ := bind_ok h3
          obtain ⟨_, _, h3⟩ := bind_ok h3
          obtain ⟨_, _, h3⟩ := bind_ok h3
          obtain ⟨_, _, h3⟩ := bind_ok h3
          obtain ⟨_, _, h3⟩ := bind_ok h3
          exact (congrArg Prod.snd (Except.ok.inj h3)).symm
        refine ⟨(ls.take (1 + nBr)) ++ a, ?_⟩
        rw [List.append_assoc, ← ha, hb, List.drop_drop, List.take_append_drop]

omit hflt in
/-- **C98**: only files are accepted that have, in this order, a line that ends the gradients and, next to it, one with
'BEGIN DOS'; in particular no file cut inside the gradients is. -/
theorem C98_complete_gradients {ls : List Line} {d : DosData K} (h : readDos flt ls = some (.ok d)) :
    ∃ a heading b, ls = a ++ gradientsEnd :: heading :: b ∧ "BEGIN DOS".toList <:+: heading := by
  unfold readDos at h
  cases hh : dosHeader ls with
  | error e => rw [hh] at h; simp at h
  | ok hd =>
    rw [hh] at h
    simp only at h
    cases hs : skipToCell (ls.drop 5) with
    | none => rw [hs] at h; cases h
    | some rest =>
      rw [hs] at h
      simp only [Option.some.injEq] at h
      obtain ⟨a0, ha0⟩ : ∃ a, ls.drop 5 = a ++ rest := by
        clear h hh
        generalize ls.drop 5 = l at hs
        induction l with
        | nil => cases hs
        | cons x l ih =>
          rw [skipToCell] at hs
          split at hs
          · obtain rfl := Option.some.inj hs
            exact ⟨[x], rfl⟩
          · obtain ⟨a, ha⟩ := ih hs
            exact ⟨x :: a, by rw [ha]; rfl⟩
      unfold dosBody at h
      obtain ⟨c, h1, h⟩ := bind_ok h
      obtain ⟨g, h2, h⟩ := bind_ok h
      obtain ⟨rows, h3, _⟩ := bind_ok h
      obtain ⟨a, ha⟩ := dosBlocks_mem h2
      have hc : c.2 = rest.drop (4 + hd.1 + 1) := by
        unfold crystalInfo at h1
        obtain ⟨_, _, h1⟩ := bind_ok h1
        obtain ⟨_, _, h1⟩ := bind_ok h1
        obtain ⟨_, _, h1⟩ := bind_ok h1
        obtain ⟨_, _, h1⟩ := bind_ok h1
        obtain ⟨_, _, h1⟩ := bind_ok h1
        obtain ⟨_, _, h1⟩ := bind_ok h1
        exact (congrArg Prod.snd (Except.ok.inj h1)).symm
      unfold dosTable at h3
      split at h3
      · rename_i hb
        rw [contains_iff] at hb
        cases hg : g.2 with
        | nil =>
          rw [hg] at hb
          have := hb.length_le
          simp at this
        | cons heading b =>
          rw [hg] at hb ha
          refine ⟨ls.take 5 ++ a0 ++ rest.take (4 + hd.1 + 1) ++ c.2.take 1 ++ a, heading, b, ?_, hb⟩
          have e1 : c.2 = c.2.take 1 ++ (a ++ endGradients :: heading :: b) := by rw [← ha, List.take_append_drop]
          calc ls = ls.take 5 ++ (a0 ++ rest) := by rw [← ha0, List.take_append_drop]
            _ = ls.take 5 ++ (a0 ++ (rest.take (4 + hd.1 + 1) ++ c.2)) := by rw [hc, List.take_append_drop]
            _ = ls.take 5 ++ (a0 ++ (rest.take (4 + hd.1 + 1) ++ (c.2.take 1 ++ (a ++ endGradients :: heading :: b)))) := by
              rw [← e1]
            _ = _ := by simp [gradientsEnd_eq]
      · cases h3

end read

/-! ## A file -/

/-- The lines of a file with the crystal of `sampleFile`, one q-point, two branches and three bins, up to the heading of the
table. -/
def dosSampleHead : List Line :=
  [printLine ["BEGIN", "header"], printLine ["Number", "of", "ions", "2"], printLine ["Number", "of", "species", "2"],
    printLine ["Number", "of", "branches", "2"], printLine ["Number", "of", "bins", "3"],
    printLine ["Unit", "cell", "vectors", "(A)"]]

/-- Its block. -/
def dosSampleGrad : List Line :=
  [printQ 1 ["0.0", "0.5", "-0.25", "1.0"], printLine ["1", "12.5", "0.5"], printLine ["2", "13.5", "0.75"]]

/-- Its table. -/
def dosSampleTable : List Line :=
  [printLine ["-1.0", "0.3", "0.1", "0.2"], printLine ["0.0", "0.7", "0.3", "0.4"], printLine ["1.0", "1.1", "0.5", "0.6"]]

/-- The file with a heading of the table. -/
def dosSample (heading : List String) : List Line :=
  dosSampleHead ++ (sampleCrystal ++ printLine ["BEGIN", "GRADIENTS"] :: ([dosSampleGrad].flatten ++
    gradientsEnd :: printLine heading :: (dosSampleTable ++ [printLine ["END", "DOS"]])))

/-- Its block as data. -/
def dosSampleBlock : GBlock :=
  ⟨1, ["0.0", "0.5", "-0.25"].map String.toList, "1.0".toList, none,
    [("12.5".toList, "0.5".toList), ("13.5".toList, "0.75".toList)]⟩

/-- Its table as data. -/
def dosSampleRows : List TRow :=
  [⟨"-1.0".toList, "0.3".toList, ["0.1".toList, "0.2".toList]⟩, ⟨"0.0".toList, "0.7".toList, ["0.3".toList, "0.4".toList]⟩,
    ⟨"1.0".toList, "1.1".toList, ["0.5".toList, "0.6".toList]⟩]

theorem dosSample_layout (heading : List String) (h : "BEGIN DOS".toList <:+: printLine heading) :
    DosFile 2 2 3 ["Si".toList, "O".toList] sampleCell sampleAtoms [dosSampleBlock] (printLine heading) dosSampleRows
      (dosSample heading) := by
  refine ⟨dosSampleHead, sampleCrystal, printLine ["BEGIN", "GRADIENTS"], [dosSampleGrad], dosSampleTable,
    [printLine ["END", "DOS"]], rfl, ?_, sampleCrystal_layout, ?_, h, rfl, ?_, ?_⟩
  · refine ⟨_, _, _, _, _, [], _, rfl, ?_, ?_, ?_, ?_, ?_, ?_⟩
    · exact ⟨["Number", "of", "ions"].map String.toList, isLine_print "Number" ["of", "ions", "2"] (by decide)⟩
    · exact ⟨["Number", "of", "species"].map String.toList, isLine_print "Number" ["of", "species", "2"] (by decide)⟩
    · exact ⟨["Number", "of", "branches"].map String.toList, isLine_print "Number" ["of", "branches", "2"] (by decide)⟩
    · exact ⟨["Number", "of", "bins"].map String.toList, isLine_print "Number" ["of", "bins", "3"] (by decide)⟩
    · simp
    · rw [← contains_iff]
      decide
  · refine .cons ⟨_, [_, _], rfl, ?_, rfl, ?_, rfl, ?_⟩ .nil
    · refine isQLine_print 1 ["0.0", "0.5", "-0.25", "1.0"] fun t ht => fixed_sample t ?_
      revert t
      decide
    · intro d hd
      cases hd
    · refine .cons ⟨"1".toList, [], ?_⟩ (.cons ⟨"2".toList, [], ?_⟩ .nil)
      · rw [if_pos (show dosSampleBlock.dir = none from rfl)]
        exact isLine_print "1" ["12.5", "0.5"] (by decide)
      · rw [if_pos (show dosSampleBlock.dir = none from rfl)]
        exact isLine_print "2" ["13.5", "0.75"] (by decide)
  · exact .cons ⟨rfl, isLine_print "-1.0" ["0.3", "0.1", "0.2"] (by decide), by decide⟩ (.cons ⟨rfl,
      isLine_print "0.0" ["0.7", "0.3", "0.4"] (by decide), by decide⟩ (.cons ⟨rfl,
      isLine_print "1.0" ["1.1", "0.5", "0.6"] (by decide), by decide⟩ .nil))
  · refine ⟨by decide, ?_, by decide⟩
    intro s
    simp [sampleAtoms]

/-- The theorems apply to the file, ... -/
example (val : List Char → ℚ) : readDos (fun t => .ok (val t)) (dosSample ["BEGIN", "DOS", "Freq", "g(f)", "Si", "O"]) =
    some (.ok (dosData val ["Si".toList, "O".toList] sampleCell sampleAtoms [dosSampleBlock] dosSampleRows)) :=
  C98_read_partial (flt := fun t => .ok (val t)) (fun _ _ => rfl) (by decide) (by decide) (by decide)
    (dosSample_layout _ (by rw [← contains_iff]; decide))

/-- ... and `element='Si'` gives its third column, ... -/
example (val : List Char → ℚ) :
    spectrumOfDos (dosData val ["Si".toList, "O".toList] sampleCell sampleAtoms [dosSampleBlock] dosSampleRows)
      (some "Si".toList) = .ok ([val "-1.0".toList, val "0.0".toList, val "1.0".toList],
        [val "0.1".toList, val "0.3".toList, val "0.5".toList], [("species", "Si".toList), ("label", "Si".toList)]) :=
  (C98_spectrum (by decide) (by decide) _ _ _ _).2.1 0 _ rfl

/-- ... even if the heading names it otherwise. -/
example (val : List Char → ℚ) : readDos (fun t => .ok (val t)) (dosSample ["BEGIN", "DOS", "Freq", "g(f)", "O", "Si"]) =
    readDos (fun t => .ok (val t)) (dosSample ["BEGIN", "DOS", "Freq", "g(f)", "Si", "O"]) :=
  C98_heading_ignored (flt := fun t => .ok (val t)) (val := val) (fun _ _ => rfl) (by decide) (by decide) (by decide)
    (dosSample_layout _ (by rw [← contains_iff]; decide)) (dosSample_layout _ (by rw [← contains_iff]; decide))

end Euphonic.CastepText
