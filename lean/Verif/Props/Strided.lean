import Verif.Model.Strided
import Mathlib.Tactic.Ring
import Mathlib.Tactic.NormNum
import Mathlib.Tactic.FinCases

/-!
# C118: the C code works on the same numbers as the Python code
-/

set_option autoImplicit false

namespace Euphonic.Strided

/-! ## Specification -/

/-- A valid index. -/
def InShape (idx shape : List Nat) : Prop := List.Forall₂ (· < ·) idx shape

/-- The number of an index when all indices are listed with the last one running fastest. -/
def rank (shape idx : List Nat) : Nat := (List.zip shape idx).foldl (fun r p => r * p.1 + p.2) 0

/-- An array with one stride for each axis. -/
def WF (a : Arr) : Prop := a.strides.length = a.shape.length

/-- A number that can be held: integers need 32 bits. -/
def Fits : Kind → ℂ → Prop
  | .int _, v => ∃ z : ℤ, v = z ∧ -2 ^ 31 ≤ z ∧ z < 2 ^ 31
  | _, _ => True

/-- Array `b` holds the numbers of `a`, and the C code, which takes it for type `want`, finds them in row-major order. -/
structure Same (junk : Kind → Kind → (ℤ → ℂ) → ℤ → ℂ) (want : Kind) (a b : Arr) : Prop where
  shape : b.shape = a.shape
  python : ∀ idx, InShape idx a.shape → Fits a.kind (a.elem idx) → b.elem idx = a.elem idx
  c : ∀ idx, InShape idx a.shape → Fits a.kind (a.elem idx) → cView junk want b (rank a.shape idx) = a.elem idx

/-- The types for which the C code takes its arguments (c/_euphonic.c:56-68): cell vectors, reciprocal vectors, q-points,
positions and directions of split q-points, force constants, origins of supercells, correction, weighting, frequencies,
eigenvectors, gradients, origins of images. -/
def argKinds : List Kind := [.float 64, .float 64, .float 64, .int 32, .float 64, .float 64, .int 32, .complex 128, .float 64,
  .float 64, .complex 128, .complex 128, .float 64]

/-- The types for which the C code takes attributes (c/_euphonic.c:69-75). -/
def attrKinds : List (String × Kind) := [("_n_sc_images", .int 32), ("_sc_image_i", .int 32), ("cell_origins", .int 32),
  ("_born", .float 64), ("_dielectric", .float 64)]

/-- Numbers of type `k` given where the C code takes type `want`: any integers for integers, any real floating point
numbers or truth values for doubles, any complex numbers for complex numbers. -/
inductive GivenFor : Kind → Kind → Prop
  | int (b : Nat) : GivenFor (.int b) (.int 32)
  | float (b : Nat) : GivenFor (.float b) (.float 64)
  | complex (b : Nat) : GivenFor (.complex b) (.complex 128)
  | bool : GivenFor .bool (.float 64)

/-- Width of an element in bits. -/
def width : Kind → Nat
  | .int b => b
  | .float b => b
  | .complex b => b
  | .bool => 8

/-! ## Lemmas -/

theorem foldl_rank (l : List (Nat × Nat)) (r : Nat) :
    l.foldl (fun r p => r * p.1 + p.2) r = r * (l.map Prod.fst).prod + l.foldl (fun r p => r * p.1 + p.2) 0 := by
  induction l generalizing r with
  | nil => simp
  | cons p l ih =>
    simp only [List.foldl_cons, List.map_cons, List.prod_cons]
    rw [ih, ih (0 * p.1 + p.2)]
    ring

theorem map_fst_zip_of {s i : List Nat} (h : InShape i s) : (List.zip s i).map Prod.fst = s := by
  rw [List.map_fst_zip]
  exact (List.Forall₂.length_eq h).ge

theorem rank_cons (n : Nat) (s : List Nat) (i : Nat) (idx : List Nat) (h : InShape idx s) :
    rank (n :: s) (i :: idx) = i * s.prod + rank s idx := by
  unfold rank
  simp only [List.zip_cons_cons, List.foldl_cons]
  rw [foldl_rank, map_fst_zip_of h]
  ring

theorem rank_lt (s idx : List Nat) (h : InShape idx s) : rank s idx < s.prod := by
  induction h with
  | nil => simp [rank]
  | cons h1 h2 ih =>
    rename_i i n is s
    rw [rank_cons _ _ _ _ h2, List.prod_cons]
    calc i * s.prod + rank s is < i * s.prod + s.prod := by omega
      _ = (i + 1) * s.prod := by ring
      _ ≤ n * s.prod := Nat.mul_le_mul_right _ h1

theorem unravel_rank (s idx : List Nat) (h : InShape idx s) : unravel s (rank s idx) = idx := by
  induction h with
  | nil => rfl
  | cons h1 h2 ih =>
    rename_i i n is s
    have hlt := rank_lt _ _ h2
    rw [rank_cons _ _ _ _ h2]
    unfold unravel
    rw [show (i * s.prod + rank s is) / s.prod = i by
        rw [mul_comm, Nat.mul_add_div (by omega), Nat.div_eq_of_lt hlt, add_zero],
      show (i * s.prod + rank s is) % s.prod = rank s is by rw [mul_comm, Nat.mul_add_mod, Nat.mod_eq_of_lt hlt], ih]

theorem dot_rowMajor (s idx : List Nat) (h : InShape idx s) : dot idx (rowMajor s) = rank s idx := by
  induction h with
  | nil => simp [dot, rank, rowMajor]
  | cons h1 h2 ih =>
    rename_i i n is s
    rw [rank_cons _ _ _ _ h2]
    unfold dot at ih ⊢
    simp only [rowMajor, List.zipWith_cons_cons, List.sum_cons, ih]
    push_cast
    ring

theorem dot_congr (s idx : List Nat) (st : List ℤ) (h : InShape idx s) (hl : st.length = s.length)
    (hc : (List.zip s (List.zip st (rowMajor s))).all (fun t => decide (t.1 = 1 ∨ t.2.1 = t.2.2)) = true) :
    dot idx st = dot idx (rowMajor s) := by
  induction h generalizing st with
  | nil =>
    cases st with
    | nil => rfl
    | cons a st => simp at hl
  | cons h1 h2 ih =>
    rename_i i n is s
    cases st with
    | nil => simp at hl
    | cons a st =>
      simp only [rowMajor, List.zip_cons_cons, List.all_cons, Bool.and_eq_true, decide_eq_true_eq] at hc
      have := ih st (by simpa using hl) hc.2
      unfold dot at this ⊢
      simp only [rowMajor, List.zipWith_cons_cons, List.sum_cons, this]
      rcases hc.1 with h | h
      · have : i = 0 := by omega
        simp [this]
      · rw [h]

theorem notEmpty_of_inShape {idx s : List Nat} (h : InShape idx s) : s.contains 0 = false := by
  induction h with
  | nil => rfl
  | cons h1 h2 ih =>
    rename_i i n is s
    simp only [List.contains_cons, Bool.or_eq_false_iff]
    exact ⟨by simp; omega, ih⟩

theorem elem_of_isC (a : Arr) (hw : WF a) (hc : a.isC = true) (idx : List Nat) (h : InShape idx a.shape) :
    a.elem idx = a.mem (a.offset + rank a.shape idx) := by
  unfold Arr.elem
  have h0 := notEmpty_of_inShape h
  unfold Arr.isC at hc
  rw [h0, Bool.false_or] at hc
  rw [dot_congr _ _ _ h hw hc, dot_rowMajor _ _ h]

theorem convert_of_fits (k : Kind) (v : ℂ) (h : Fits k v) : convert k v = v := by
  cases k with
  | int b =>
    obtain ⟨z, rfl, h1, h2⟩ := h
    unfold convert
    simp only [Complex.intCast_re, Int.floor_intCast]
    congr 1
    rw [Int.bmod_def]
    split <;> omega
  | float b => rfl
  | complex b => rfl
  | bool => rfl

theorem target_of_given {k want : Kind} (h : GivenFor k want) : target k = want := by cases h <;> rfl

theorem target_target (k : Kind) : target (target k) = target k := by cases k <;> rfl

/-- Whatever its memory order and precision, an array that goes through `astype` has the numbers where C looks for them. -/
theorem ensure_same (junk : Kind → Kind → (ℤ → ℂ) → ℤ → ℂ) (a : Arr) (hw : WF a) : Same junk (target a.kind) a (ensure a) := by
  unfold ensure
  split
  · rename_i h
    refine ⟨rfl, fun _ _ _ => rfl, ?_⟩
    intro idx hi _
    unfold cView
    rw [if_pos h.1, elem_of_isC a hw h.2 idx hi]
  · refine ⟨rfl, ?_, ?_⟩
    · intro idx hi hf
      unfold Arr.elem at hf ⊢
      dsimp only
      rw [dot_rowMajor _ _ hi, zero_add, Int.toNat_natCast, unravel_rank _ _ hi]
      exact convert_of_fits _ _ hf
    · intro idx hi hf
      unfold cView
      rw [if_pos rfl]
      dsimp only
      rw [zero_add, Int.toNat_natCast, unravel_rank _ _ hi]
      exact convert_of_fits _ _ hf

theorem getArr_cons (k : String) (v : Option Arr) (o : Attrs) (n : String) :
    getArr ((k, v) :: o) n = if k = n then (match v with | some a => .ok a | none => .error .attributeError) else getArr o n := by
  unfold getArr
  by_cases h : k = n
  · subst h
    cases v <;> simp
  · simp [h]

theorem getArr_setArr (o : Attrs) (n m : String) (a : Arr) :
    getArr (setArr o m a) n = if n = m then (if n ∈ o.map Prod.fst then .ok a else .error .attributeError) else getArr o n := by
  induction o with
  | nil =>
    unfold setArr getArr
    simp
  | cons p o ih =>
    obtain ⟨k, v⟩ := p
    unfold setArr at ih ⊢
    rw [List.map_cons, getArr_cons]
    by_cases hm : k = m
    · subst hm
      simp only [if_true, getArr_cons, ih]
      by_cases hn : k = n
      · subst hn; simp
      · have : ¬ n = k := fun h => hn h.symm
        simp [hn, this]
    · simp only [hm, if_false, getArr_cons, ih]
      by_cases hn : k = n
      · subst hn; simp [hm]
      · have : ¬ n = k := fun h => hn h.symm
        simp only [List.map_cons, List.mem_cons, this, false_or, hn, if_false]

theorem mem_of_getArr {o : Attrs} {n : String} {a : Arr} (h : getArr o n = .ok a) : n ∈ o.map Prod.fst := by
  induction o with
  | nil => simp [getArr] at h
  | cons p o ih =>
    obtain ⟨k, v⟩ := p
    rw [getArr_cons] at h
    by_cases hk : k = n
    · simp [hk]
    · rw [if_neg hk] at h
      simp [ih h]

theorem getArr_set_ok {o : Attrs} {n m : String} {a b : Arr} (h : getArr o n = .ok b) :
    getArr (setArr o m a) n = .ok (if n = m then a else b) := by
  rw [getArr_setArr]
  by_cases hm : n = m
  · simp only [hm, if_true]
    rw [if_pos (hm ▸ mem_of_getArr h)]
  · simp [hm, h]

theorem getArr_set_err {o : Attrs} {n m : String} {a b : Arr} {e : Err} (hm : getArr o m = .ok b) (h : getArr o n = .error e) :
    getArr (setArr o m a) n = .error e := by
  rw [getArr_setArr]
  by_cases hnm : n = m
  · subst hnm; rw [hm] at h; cases h
  · simp [hnm, h]

theorem isC_rowMajor (k : Kind) (s : List Nat) (o : ℤ) (m : ℤ → ℂ) : Arr.isC ⟨k, s, rowMajor s, o, m⟩ = true := by
  unfold Arr.isC
  rw [Bool.or_eq_true]
  right
  dsimp only
  rw [List.all_eq_true]
  intro t ht
  obtain ⟨i, hi, rfl⟩ := List.getElem_of_mem ht
  simp

theorem ensure_idem (a : Arr) : ensure (ensure a) = ensure a := by
  by_cases h : a.kind = target a.kind ∧ a.isC = true
  · have : ensure a = a := by unfold ensure; rw [if_pos h]
    rw [this, this]
  · have : ensure a = ⟨target a.kind, a.shape, rowMajor a.shape, 0,
        fun k => convert a.kind (a.elem (unravel a.shape k.toNat))⟩ := by
      unfold ensure; rw [if_neg h]
    rw [this]
    conv_lhs => unfold ensure
    rw [if_pos ⟨(target_target _).symm, isC_rowMajor _ _ _ _⟩]

/-- The optional names. -/
theorem foldl_opt (names : List String) (o : Attrs) (n : String) :
    (∀ a, getArr o n = .ok a → getArr (names.foldl (fun o n => match getArr o n with
      | .ok a => setArr o n (ensure a)
      | .error _ => o) o) n = .ok (if n ∈ names then ensure a else a)) ∧
    (∀ e, getArr o n = .error e → getArr (names.foldl (fun o n => match getArr o n with
      | .ok a => setArr o n (ensure a)
      | .error _ => o) o) n = .error e) := by
  induction names generalizing o with
  | nil => simp
  | cons m names ih =>
    simp only [List.foldl_cons]
    cases hm : getArr o m with
    | error e' =>
      dsimp only
      refine ⟨fun a ha => ?_, (ih o).2⟩
      have hne : n ≠ m := by rintro rfl; rw [hm] at ha; cases ha
      rw [(ih o).1 a ha]
      simp [hne]
    | ok b =>
      dsimp only
      refine ⟨fun a ha => ?_, fun e he => (ih _).2 e (getArr_set_err hm he)⟩
      rw [(ih _).1 _ (getArr_set_ok ha)]
      by_cases hne : n = m
      · subst hne
        rw [hm] at ha
        cases ha
        simp [ensure_idem]
      · simp [hne]

/-- The required names. -/
theorem foldlM_req (names : List String) (o o' : Attrs) (h : names.foldlM (fun o n => do
      let a ← getArr o n
      return setArr o n (ensure a)) o = (.ok o' : Except Err Attrs)) (n : String) :
    (∀ a, getArr o n = .ok a → getArr o' n = .ok (if n ∈ names then ensure a else a)) ∧
    (∀ e, getArr o n = .error e → getArr o' n = .error e ∧ n ∉ names) := by
  induction names generalizing o with
  | nil =>
    cases h
    simp
  | cons m names ih =>
    simp only [List.foldlM_cons, bind, Except.bind] at h
    cases hm : getArr o m with
    | error e => rw [hm] at h; cases h
    | ok b =>
      rw [hm] at h
      simp only [pure, Except.pure] at h
      refine ⟨fun a ha => ?_, fun e he => ?_⟩
      · rw [(ih _ h).1 _ (getArr_set_ok ha)]
        by_cases hne : n = m
        · subst hne
          rw [hm] at ha
          cases ha
          simp [ensure_idem]
        · simp [hne]
      · have := (ih _ h).2 e (getArr_set_err hm he)
        refine ⟨this.1, ?_⟩
        have hne : n ≠ m := by rintro rfl; rw [hm] at he; cases he
        simp [hne, this.2]

theorem ensureAttrs_get (o o' : Attrs) (req opt : List String) (h : ensureAttrs o req opt = .ok o') (n : String) :
    (∀ a, getArr o n = .ok a → getArr o' n = .ok (if n ∈ req ∨ n ∈ opt then ensure a else a)) ∧
    (∀ e, getArr o n = .error e → getArr o' n = .error e ∧ n ∉ req) := by
  unfold ensureAttrs at h
  cases h1 : req.foldlM (fun o n => do
      let a ← getArr o n
      return setArr o n (ensure a)) o with
  | error e => rw [h1] at h; cases h
  | ok o1 =>
    rw [h1] at h
    cases h
    have hr := foldlM_req req o o1 h1 n
    have ho := foldl_opt opt o1 n
    refine ⟨fun a ha => ?_, fun e he => ⟨ho.2 e (hr.2 e he).1, (hr.2 e he).2⟩⟩
    have := ho.1 _ (hr.1 a ha)
    refine this.trans ?_
    congr 1
    by_cases h2 : n ∈ req <;> by_cases h3 : n ∈ opt <;> simp [h2, h3, ensure_idem]

theorem foldlM_ok_iff (names : List String) (o : Attrs) : (∃ o', names.foldlM (fun o n => do
      let a ← getArr o n
      return setArr o n (ensure a)) o = (.ok o' : Except Err Attrs)) ↔ ∀ n ∈ names, ∃ a, getArr o n = .ok a := by
  induction names generalizing o with
  | nil => exact ⟨fun _ => by simp, fun _ => ⟨o, rfl⟩⟩
  | cons m names ih =>
    simp only [List.foldlM_cons, bind, Except.bind]
    cases hm : getArr o m with
    | error e => simp [hm]
    | ok b =>
      simp only [pure, Except.pure]
      have := ih (setArr o m (ensure b))
      simp only [bind, Except.bind, pure, Except.pure] at this
      rw [this]
      simp only [List.mem_cons, forall_eq_or_imp, hm]
      constructor
      · intro h
        refine ⟨⟨b, rfl⟩, fun n hn => ?_⟩
        obtain ⟨a, ha⟩ := h n hn
        cases hg : getArr o n with
        | ok x => exact ⟨x, rfl⟩
        | error e => rw [getArr_set_err hm hg] at ha; cases ha
      · intro h n hn
        obtain ⟨a, ha⟩ := h.2 n hn
        exact ⟨_, getArr_set_ok ha⟩

/-! ## Theorems -/

/-- **C118** The arguments and the attributes of the force constants that the C code reads hold the numbers given, where
it looks for them, whatever their memory order and precision, if integers are given for integers and other numbers for
other numbers; nothing changes for Python. -/
theorem C118_call_partial (junk : Kind → Kind → (ℤ → ℂ) → ℤ → ℂ) (c c' : Call) (h : prepare c = .ok c') (hw : ∀ a ∈ c.args, WF a)
    (hwa : ∀ n a, getArr c.attrs n = .ok a → WF a) :
    (∀ (i : Nat) (a : Arr) (k : Kind), c.args[i]? = some a → argKinds[i]? = some k → GivenFor a.kind k →
      ∃ b, c'.args[i]? = some b ∧ Same junk k a b) ∧
    (∀ n k a, (n, k) ∈ attrKinds → getArr c.attrs n = .ok a → GivenFor a.kind k →
      ∃ b, getArr c'.attrs n = .ok b ∧ Same junk k a b) ∧
    ∀ n a, getArr c.attrs n = .ok a → ∃ b, getArr c'.attrs n = .ok b ∧
      ∀ idx, InShape idx a.shape → Fits a.kind (a.elem idx) → b.elem idx = a.elem idx := by
  unfold prepare at h
  cases h1 : ensureAttrs c.attrs requiredAttrs dipoleAttrs with
  | error e => rw [h1] at h; cases h
  | ok o =>
    rw [h1] at h
    cases h
    have hget := ensureAttrs_get c.attrs o requiredAttrs dipoleAttrs h1
    have hlisted : ∀ n, n ∈ requiredAttrs ∨ n ∈ dipoleAttrs → ∀ a, getArr c.attrs n = .ok a →
        ∃ b, getArr o n = .ok b ∧ Same junk (target a.kind) a b := by
      intro n hn a ha
      have := (hget n).1 a ha
      rw [if_pos hn] at this
      exact ⟨_, this, ensure_same junk a (hwa n a ha)⟩
    refine ⟨?_, ?_, ?_⟩
    · intro i a k hi hk ht
      have ht : target a.kind = k := target_of_given ht
      dsimp only
      refine ⟨ensure a, by rw [List.getElem?_map, hi]; rfl, ?_⟩
      rw [← ht]
      exact ensure_same junk a (hw a (List.mem_of_getElem? hi))
    · intro n k a hn ha ht
      have ht : target a.kind = k := target_of_given ht
      rw [← ht]
      apply hlisted n _ a ha
      simp only [attrKinds, List.mem_cons, List.not_mem_nil, or_false, Prod.mk.injEq] at hn
      rcases hn with ⟨rfl, -⟩ | ⟨rfl, -⟩ | ⟨rfl, -⟩ | ⟨rfl, -⟩ | ⟨rfl, -⟩ <;> decide
    · intro n a ha
      by_cases hn : n ∈ requiredAttrs ∨ n ∈ dipoleAttrs
      · obtain ⟨b, hb, hs⟩ := hlisted n hn a ha
        exact ⟨b, hb, hs.python⟩
      · have := (hget n).1 a ha
        rw [if_neg hn] at this
        exact ⟨a, this, fun _ _ _ => rfl⟩

/-- **C118** *Violation:* integers given where the C code takes doubles (q-points without reduction, cell vectors, Born
charges, dielectric tensor) are made 32 bits wide: the C code reads beyond the end of the array. -/
theorem C118_integers_overrun (c c' : Call) (h : prepare c = .ok c') (i : Nat) (a : Arr) (bits : Nat)
    (ha : c.args[i]? = some a) (hk : a.kind = .int bits) (h0 : 0 < a.shape.prod) :
    ∃ b, c'.args[i]? = some b ∧ b.shape = a.shape ∧ b.shape.prod * width b.kind < a.shape.prod * width (.float 64) := by
  unfold prepare at h
  cases h1 : ensureAttrs c.attrs requiredAttrs dipoleAttrs with
  | error e => rw [h1] at h; cases h
  | ok o =>
    rw [h1] at h
    cases h
    refine ⟨ensure a, by dsimp only; rw [List.getElem?_map, ha]; rfl, ?_⟩
    have hkind : (ensure a).kind = .int 32 := by
      unfold ensure
      split
      · rename_i h; rw [h.1, hk]; rfl
      · dsimp only; rw [hk]; rfl
    have hshape : (ensure a).shape = a.shape := by
      unfold ensure
      split <;> rfl
    refine ⟨hshape, ?_⟩
    rw [hkind, hshape]
    show a.shape.prod * 32 < a.shape.prod * 64
    omega

/-- **C118** The call fails only if one of the three attributes that are always needed is missing. -/
theorem C118_missing (c : Call) : (∃ e, prepare c = .error e) ↔
    ∃ n ∈ ["_n_sc_images", "_sc_image_i", "cell_origins"], ∃ e, getArr c.attrs n = .error e := by
  have h := foldlM_ok_iff requiredAttrs c.attrs
  have hp : (∃ c', prepare c = .ok c') ↔ ∀ n ∈ requiredAttrs, ∃ a, getArr c.attrs n = .ok a := by
    rw [← h]
    unfold prepare ensureAttrs
    simp only [bind, Except.bind, pure, Except.pure]
    constructor
    · rintro ⟨c', hc⟩
      split at hc
      · cases hc
      · rename_i heq
        split at heq
        · cases heq
        · rename_i x hx
          exact ⟨_, hx⟩
    · rintro ⟨o', ho⟩
      rw [ho]
      exact ⟨_, rfl⟩
  have hok : ∀ {β : Type} (x : Except Err β), (∃ e, x = .error e) ↔ ¬ ∃ y, x = .ok y := by
    intro β x
    cases x with
    | ok y => simp
    | error e => simp
  rw [hok, hp]
  simp only [not_forall, hok]
  exact ⟨fun ⟨n, hn, h⟩ => ⟨n, hn, h⟩, fun ⟨n, hn, h⟩ => ⟨n, hn, h⟩⟩

/-- **C118** The positions of the atoms are right if they are doubles in row-major order. -/
theorem C118_atom_r_partial (junk : Kind → Kind → (ℤ → ℂ) → ℤ → ℂ) (c c' : Call) (h : prepare c = .ok c')
    (hw : WF c.atomR) (hk : c.atomR.kind = .float 64) (hc : c.atomR.isC = true) :
    Same junk (.float 64) c.atomR c'.atomR := by
  have he : c'.atomR = ensure c.atomR := by
    unfold prepare at h
    cases h1 : ensureAttrs c.attrs requiredAttrs dipoleAttrs with
    | error e => rw [h1] at h; cases h
    | ok o =>
      rw [h1] at h
      cases h
      unfold ensure
      rw [if_pos ⟨by rw [hk]; rfl, hc⟩]
  rw [he]
  have := ensure_same junk c.atomR hw
  rwa [hk] at this

/-- **C118** *Violation:* two atoms at the origin and at (1/2, 1/4, 1/8) in an array in Fortran order. -/
noncomputable def fortran : Arr := ⟨.float 64, [2, 3], [1, 2], 0, fun k =>
  if k = 1 then 1 / 2 else if k = 3 then 1 / 4 else if k = 5 then 1 / 8 else 0⟩

theorem C118_atom_r_wrong (junk : Kind → Kind → (ℤ → ℂ) → ℤ → ℂ) (c c' : Call) (h : prepare c = .ok c') (ha : c.atomR = fortran) :
    WF fortran ∧ fortran.elem [0, 1] = 0 ∧ cView junk (.float 64) c'.atomR (rank [2, 3] [0, 1]) = 1 / 2 ∧
    fortran.elem [1, 2] = 1 / 8 ∧ fortran.elem [1, 0] = 1 / 2 ∧ cView junk (.float 64) c'.atomR (rank [2, 3] [1, 0]) = 1 / 4 := by
  have he : c'.atomR = fortran := by
    unfold prepare at h
    cases h1 : ensureAttrs c.attrs requiredAttrs dipoleAttrs with
    | error e => rw [h1] at h; cases h
    | ok o =>
      rw [h1] at h
      cases h
      exact ha
  rw [he]
  refine ⟨rfl, ?_, ?_, ?_, ?_, ?_⟩ <;> simp [fortran, Arr.elem, dot, cView, rank]

/-- A concrete call meeting the hypotheses: 64-bit integers and doubles in Fortran order. -/
example : ∃ c', prepare ⟨[fortran], [("_n_sc_images", some ⟨.int 64, [1, 1, 1], [1, 1, 1], 0, fun _ => 1⟩),
      ("_sc_image_i", some ⟨.int 64, [1, 1, 1, 1], [1, 1, 1, 1], 0, fun _ => 62⟩),
      ("cell_origins", some ⟨.int 64, [2, 3], [1, 2], 0, fun k => (k : ℂ)⟩), ("_born", none)], fortran, []⟩ = .ok c' ∧
    (∃ b, getArr c'.attrs "cell_origins" = .ok b ∧ b.kind = .int 32) ∧ getArr c'.attrs "_born" = .error .attributeError := by
  refine ⟨_, rfl, ⟨_, rfl, ?_⟩, rfl⟩
  unfold ensure
  rw [if_neg (by simp [target])]
  rfl

end Euphonic.Strided
