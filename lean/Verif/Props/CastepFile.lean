import Verif.Props.CastepBin

/-!
# C58 for whole files, C65 and C84: `.castep_bin` files are read as written or refused
-/

set_option autoImplicit false
set_option linter.unusedSectionVars false

namespace Euphonic.CastepBin

open Euphonic.Lattice Euphonic.Supercell

variable {K : Type}

/-! ## Readers depend only on the bytes they use -/

/-- A reader uses a definite part of the file: what is behind it does not matter, and that part alone
gives the same value. -/
structure Exact {α : Type} (r : Rd α) : Prop where
  ext : Ext r
  loc : ∀ f v rest, r f = .ok (v, rest) → ∃ p, f = p ++ rest ∧ r p = .ok (v, [])

theorem Exact.pure {α : Type} (a : α) : Exact (pure a : Rd α) :=
  ⟨Ext.pure a, fun f v rest h => by cases h; exact ⟨[], rfl, rfl⟩⟩

theorem Exact.throw {α : Type} (e : Err) : Exact (throw e : Rd α) :=
  ⟨Ext.throw e, fun f v rest h => by cases h⟩

theorem Exact.lift {α : Type} (x : Except Err α) : Exact (liftM x : Rd α) :=
  ⟨Ext.lift x, fun f v rest h => by
    obtain ⟨h1, rfl⟩ := lift_eq_ok h
    exact ⟨[], rfl, lift_ok _ _ h1 _⟩⟩

theorem Exact.bind {α β : Type} {x : Rd α} {g : α → Rd β} (hx : Exact x) (hg : ∀ a, Exact (g a)) :
    Exact (x >>= g) := by
  refine ⟨Ext.bind hx.ext fun a => (hg a).ext, fun f v rest h => ?_⟩
  obtain ⟨a, f', h1, h2⟩ := bind_eq_ok h
  obtain ⟨p1, rfl, h3⟩ := hx.loc _ _ _ h1
  obtain ⟨p2, rfl, h4⟩ := (hg a).loc _ _ _ h2
  refine ⟨p1 ++ p2, by rw [List.append_assoc], ?_⟩
  rw [bind_of_ok (hx.ext _ _ _ h3 p2)]
  exact h4

theorem Exact.ite {α : Type} {c : Prop} [Decidable c] {x y : Rd α} (hx : Exact x) (hy : Exact y) :
    Exact (if c then x else y) := by
  split
  · exact hx
  · exact hy

/-- What follows the bytes used makes no difference to the data between the markers. -/
theorem readData_any {dbl : List UInt8 → K} {t : DType} {n : Nat} {b s : File} {e : Entry K}
    (hl : (b.length : Int) = (if t ≠ .raw ∧ (n : Int).tdiv t.size > 1 then (n : Int).tdiv t.size * t.size
      else n)) (h : readData dbl t n (b ++ s) = .ok (e, s)) (s' : File) :
    readData dbl t n (b ++ s') = .ok (e, s') := by
  unfold readData at h ⊢
  by_cases ht : t = .raw
  · rw [if_pos ht] at h ⊢
    rw [if_neg (by simp [ht])] at hl
    rw [← hl] at h ⊢
    rw [bind_of_ok (readBytes_nat _ _), List.take_left, List.drop_left] at h ⊢
    cases h; rfl
  · rw [if_neg ht] at h ⊢
    by_cases hn : (n : Int).tdiv t.size > 1
    · simp only [hn, if_true] at h ⊢
      rw [if_pos ⟨ht, hn⟩] at hl
      rw [← hl] at h ⊢
      rw [bind_of_ok (readBytes_nat _ _), List.take_left, List.drop_left] at h ⊢
      cases h; rfl
    · simp only [hn, if_false] at h ⊢
      rw [if_neg (fun hc => hn hc.2)] at hl
      rw [← hl] at h ⊢
      rw [bind_of_ok (readBytes_nat _ _), List.take_left, List.drop_left] at h ⊢
      obtain ⟨h5, -⟩ := lift_eq_ok h
      exact lift_ok _ _ h5 _

theorem Exact.readEntry (dbl : List UInt8 → K) (t : DType) : Exact (readEntry dbl t) := by
  refine ⟨Ext.readEntry dbl t, fun f v rest h => ?_⟩
  obtain ⟨n, b, hn, rfl, h1, -, hl⟩ := readEntry_anatomy h
  refine ⟨mark n ++ b ++ mark n, rfl, ?_⟩
  rw [List.append_assoc] at h1
  have := readEntry_of (rest := []) hn (readData_any hl h1 _)
  rw [List.append_nil] at this
  exact this

theorem Exact.readHeader (dbl : List UInt8 → K) : Exact (readHeader dbl) := by
  unfold CastepBin.readHeader
  refine Exact.bind (Exact.readEntry dbl .raw) fun e => ?_
  cases e <;> first | exact Exact.pure _ | exact Exact.throw _

theorem Exact.shrinks {α : Type} {r : Rd α} (h : Exact r) : Shrinks r := by
  intro f v rest h1
  obtain ⟨p, rfl, -⟩ := h.loc _ _ _ h1
  simp

theorem readHeader_consumes {dbl : List UInt8 → K} {f rest : File} {b : List UInt8}
    (h : readHeader dbl f = .ok (b, rest)) : rest.length + 8 ≤ f.length := by
  unfold readHeader at h
  obtain ⟨e, f', h1, h2⟩ := bind_eq_ok h
  have := readEntry_consumes h1
  cases e <;> cases h2
  exact this

/-- Closes `Exact` goals for readers built from records, tests and computations. -/
macro "exact_rd" : tactic => `(tactic| repeat' first
  | exact Exact.pure _ | exact Exact.throw _ | exact Exact.lift _ | exact Exact.readEntry _ _
  | exact Exact.readHeader _ | refine Exact.ite ?_ ?_ | refine Exact.bind ?_ fun _ => ?_)

theorem Exact.cellStep (dbl : List UInt8 → K) (h : List UInt8) (v : CellVars K) :
    Exact (cellStep dbl h v) := by
  unfold CastepBin.cellStep
  exact_rd

theorem Exact.cellLoop (dbl : List UInt8 → K) (n : Nat) (v : CellVars K) : Exact (cellLoop dbl n v) := by
  induction n generalizing v with
  | zero => exact Exact.throw _
  | succ n ih =>
    unfold CastepBin.cellLoop
    refine Exact.bind (Exact.readHeader dbl) fun h => Exact.ite (Exact.pure _)
      (Exact.bind (Exact.cellStep dbl h v) fun v' => ih v')

/-- The fuel of the loop is never used up: every larger amount gives the same outcome. -/
theorem cellLoop_fuel (dbl : List UInt8 → K) (n m : Nat) (v : CellVars K) (f : File)
    (hn : f.length < n) (hm : f.length < m) : cellLoop dbl n v f = cellLoop dbl m v f := by
  induction n generalizing m v f with
  | zero => omega
  | succ n ih =>
    cases m with
    | zero => omega
    | succ m =>
      unfold CastepBin.cellLoop
      rw [bind_apply, bind_apply]
      cases h1 : readHeader dbl f with
      | error e => rfl
      | ok r =>
        obtain ⟨b, f'⟩ := r
        have hc := readHeader_consumes h1
        by_cases hb : b = ascii "END_UNIT_CELL"
        · simp only [if_pos hb]
        · simp only [if_neg hb]
          rw [bind_apply, bind_apply]
          cases h2 : CastepBin.cellStep dbl b v f' with
          | error e => rfl
          | ok r =>
            obtain ⟨v', f''⟩ := r
            have := (Exact.cellStep dbl b v).shrinks _ _ _ h2
            exact ih m v' f'' (by omega) (by omega)

section
variable [Zero K]

theorem readCell_eq {dbl : List UInt8 → K} {f : File} (n : Nat) (hn : f.length < n) :
    readCell dbl f = (CastepBin.cellLoop dbl n CellVars.empty >>= fun v =>
      (liftM (finishCell v) : Rd (Cell K))) f := by
  have h : readCell dbl f = (CastepBin.cellLoop dbl (f.length + 1) CellVars.empty >>= fun v =>
      (liftM (finishCell v) : Rd (Cell K))) f := rfl
  rw [h, bind_apply, bind_apply, cellLoop_fuel dbl (f.length + 1) n _ f (by omega) hn]

theorem Exact.readCell (dbl : List UInt8 → K) : Exact (readCell dbl) := by
  have hE : ∀ n, Exact (CastepBin.cellLoop dbl n CellVars.empty >>= fun v =>
      (liftM (finishCell v) : Rd (Cell K))) := fun n =>
    Exact.bind (Exact.cellLoop dbl n _) fun _ => Exact.lift _
  constructor
  · intro p v rest h s
    rw [readCell_eq ((p ++ s).length + 1) (by omega)]
    rw [readCell_eq ((p ++ s).length + 1) (by rw [List.length_append]; omega)] at h
    exact (hE _).ext _ _ _ h s
  · intro f v rest h
    rw [readCell_eq (f.length + 1) (by omega)] at h
    obtain ⟨p, rfl, h2⟩ := (hE _).loc _ _ _ h
    refine ⟨p, rfl, ?_⟩
    rw [readCell_eq ((p ++ rest).length + 1) (by rw [List.length_append]; omega)]
    exact h2

theorem Exact.fileStep (dbl : List UInt8 → K) (old : List UInt8 → Except Err Bool) (h : List UInt8)
    (v : FileVars K) : Exact (fileStep dbl old h v) := by
  unfold CastepBin.fileStep
  refine Exact.ite ?_ (Exact.ite (Exact.ite (Exact.bind (Exact.readCell dbl) fun _ => ?_) ?_) ?_)
  all_goals exact_rd

theorem Exact.fileLoop (dbl : List UInt8 → K) (old : List UInt8 → Except Err Bool) (n : Nat)
    (v : FileVars K) : Exact (fileLoop dbl old n v) := by
  induction n generalizing v with
  | zero => exact Exact.throw _
  | succ n ih =>
    unfold CastepBin.fileLoop
    refine Exact.bind (Exact.readHeader dbl) fun h => Exact.ite (Exact.pure _)
      (Exact.bind (Exact.fileStep dbl old h v) fun v' => ih v')

/-- The fuel of the loop over the file is never used up. -/
theorem fileLoop_fuel (dbl : List UInt8 → K) (old : List UInt8 → Except Err Bool) (n m : Nat)
    (v : FileVars K) (f : File) (hn : f.length < n) (hm : f.length < m) :
    fileLoop dbl old n v f = fileLoop dbl old m v f := by
  induction n generalizing m v f with
  | zero => omega
  | succ n ih =>
    cases m with
    | zero => omega
    | succ m =>
      unfold CastepBin.fileLoop
      rw [bind_apply, bind_apply]
      cases h1 : readHeader dbl f with
      | error e => rfl
      | ok r =>
        obtain ⟨b, f'⟩ := r
        have hc := readHeader_consumes h1
        by_cases hb : b = ascii "END"
        · simp only [if_pos hb]
        · simp only [if_neg hb]
          rw [bind_apply, bind_apply]
          cases h2 : CastepBin.fileStep dbl old b v f' with
          | error e => rfl
          | ok r =>
            obtain ⟨v', f''⟩ := r
            have := (Exact.fileStep dbl old b v).shrinks _ _ _ h2
            exact ih m v' f'' (by omega) (by omega)

end

/-! ## C58 for whole files -/

section
variable [Field K] [LinearOrder K] [FloorRing K]

theorem readInterpolation_eq (dbl : List UInt8 → K) (old : List UInt8 → Except Err Bool) (f : File)
    (n : Nat) (hn : f.length < n) :
    readInterpolation dbl old f = match fileLoop dbl old n FileVars.empty f with
      | .ok (v, _) => finishFile v
      | .error e => .error e := by
  unfold readInterpolation
  rw [fileLoop_fuel dbl old (f.length + 1) n _ f (by omega) hn]
  cases fileLoop dbl old n FileVars.empty f with
  | error e => rfl
  | ok r => rfl

/-- A file that can be read has a definite last byte that matters: cut anywhere before it, the file is
refused; cut behind it, or followed by anything else, it gives the same data.  So no truncated file is
read as something different. -/
theorem C58_whole_file (dbl : List UInt8 → K) (old : List UInt8 → Except Err Bool) (f : File)
    (d : Data K) (h : readInterpolation dbl old f = .ok d) :
    ∃ c ≤ f.length, (∀ k < c, ∃ e, readInterpolation dbl old (f.take k) = .error e) ∧
      ∀ s, readInterpolation dbl old (f.take c ++ s) = .ok d := by
  rw [readInterpolation_eq dbl old f (f.length + 1) (by omega)] at h
  cases h1 : fileLoop dbl old (f.length + 1) FileVars.empty f with
  | error e => rw [h1] at h; cases h
  | ok r =>
    obtain ⟨v, rest⟩ := r
    rw [h1] at h
    obtain ⟨p, hp, h2⟩ := (Exact.fileLoop dbl old _ _).loc _ _ _ h1
    refine ⟨p.length, by rw [hp]; simp, fun k hk => ?_, fun s => ?_⟩
    · cases h3 : readInterpolation dbl old (f.take k) with
      | error e => exact ⟨e, rfl⟩
      | ok d' =>
        exfalso
        rw [readInterpolation_eq dbl old _ (f.length + 1)
          (by rw [List.length_take]; omega)] at h3
        cases h4 : fileLoop dbl old (f.length + 1) FileVars.empty (f.take k) with
        | error e => rw [h4] at h3; cases h3
        | ok r =>
          obtain ⟨v', rest'⟩ := r
          have h5 := (Exact.fileLoop dbl old _ _).ext _ _ _ h4 (f.drop k)
          rw [List.take_append_drop, h1] at h5
          simp only [Except.ok.injEq, Prod.mk.injEq] at h5
          have h6 := congrArg List.length h5.2
          have h7 := congrArg List.length hp
          simp only [List.length_append, List.length_drop] at h6 h7
          omega
    · have hf : f.take p.length = p := by rw [hp]; exact List.take_left ..
      rw [hf]
      rw [readInterpolation_eq dbl old _ (f.length + (p ++ s).length + 1) (by omega)]
      have h8 : fileLoop dbl old (f.length + (p ++ s).length + 1) FileVars.empty p = .ok (v, []) := by
        rw [← h2]
        exact fileLoop_fuel _ _ _ _ _ _ (by rw [List.length_append]; omega)
          (by rw [hp, List.length_append]; omega)
      rw [(Exact.fileLoop dbl old _ _).ext _ _ _ h8 s]
      exact h

end

end Euphonic.CastepBin
