import Verif.Prelude
import Verif.Model.Objects
import Verif.Props.Units
import Verif.Props.Validate
import Verif.Props.Json

/-! # Property C17: `from_dict(to_dict(x))` reproduces `x` -/

set_option autoImplicit false
set_option linter.unusedSectionVars false

namespace Euphonic.Py

variable {U α : Type} [Field α] [DecidableEq α]

/-! ## Specification: well-formed objects -/

/-- pint contract: the name of a unit is understood as this unit. -/
def Registry.Lawful (R : Registry U α) : Prop := ∀ u, R.parse (R.render u) = some u

/-- The two units have the same dimension and no offset. -/
def Registry.Compat (R : Registry U α) (i u : U) : Prop :=
  (R.unit u).dim = (R.unit i).dim ∧ (R.unit i).Linear ∧ (R.unit u).Linear

/-- A float array of the given shape. -/
def FloatArr (v : PyVal U α) (shape : List Nat) : Prop :=
  ∃ d : List α, v = .arr ⟨shape, d.map .flt⟩ ∧ d.length = shape.prod

/-- An array (of integers, floats or strings) of the given shape. -/
def ElemArr (v : PyVal U α) (shape : List Nat) : Prop :=
  ∃ d : List (Elem α), v = .arr ⟨shape, d⟩ ∧ d.length = shape.prod

/-- A quantity attribute holding a float array of the given shape. -/
structure Stored.WF (R : Registry U α) (i : U) (shape : List Nat) (s : Stored U α) : Prop where
  arr : FloatArr s.mag shape
  compat : R.Compat i s.unit

/-- A scalar float attribute. -/
structure Stored.ScalarWF (R : Registry U α) (i : U) (s : Stored U α) : Prop where
  flt : ∃ x, s.mag = .flt x
  compat : R.Compat i s.unit

/-- What the constructor of `Crystal` guarantees. -/
structure CrystalO.WF (R : Registry U α) (I : Internals U) (c : CrystalO U α) : Prop where
  cv : c.cellVectors.WF R I.bohr [3, 3]
  r : ElemArr c.atomR [c.nAtoms, 3]
  t : ∃ d : List String, c.atomType = .arr ⟨[c.nAtoms], d.map .str⟩ ∧ d.length = c.nAtoms
  m : c.atomMass.WF R I.electronMass [c.nAtoms]

/-! ## Lemmas -/

theorem mapNum_flt (f : α → Option α) (g : α → α) (shape : List Nat) (d : List α)
    (h : ∀ x ∈ d, f x = some (g x)) :
    (PyVal.arr ⟨shape, d.map .flt⟩ : PyVal U α).mapNum f = some (.arr ⟨shape, (d.map g).map .flt⟩) := by
  have : (d.map Elem.flt).mapM (Elem.mapNum f) = some ((d.map g).map .flt) := by
    rw [mapM_option_some (Elem.mapNum f) (fun e => match e with
      | .flt x => .flt (g x)
      | e => e)]
    · simp
    · intro e he
      obtain ⟨x, hx, rfl⟩ := List.mem_map.1 he
      simp [Elem.mapNum, h x hx]
  simp [PyVal.mapNum, this]

theorem conv_back (i u : PUnit' α) (hd : u.dim = i.dim) (hi : i.Linear) (hu : u.Linear) (x : α) :
    conv u i (x * u.fromBase (i.toBase 1)) = some x := by
  rw [conv_same _ _ hd]
  obtain ⟨h1, h2⟩ := hi
  obtain ⟨h3, h4⟩ := hu
  simp only [PUnit'.toBase, PUnit'.fromBase, h2, h4]
  congr 1
  field_simp
  ring

/-- A quantity attribute that is read and given to the constructor is stored as before. -/
theorem read_store (R : Registry U α) (i : U) (shape : List Nat) (s : Stored U α)
    (h : s.WF R i shape) :
    ∃ d : List α, readQ R i s = .ok (.qty (.arr ⟨shape, d.map .flt⟩) s.unit) ∧
      d.length = shape.prod ∧
      storeQ R i (.qty (.arr ⟨shape, d.map .flt⟩) s.unit) = .ok s := by
  obtain ⟨d, hd, hl⟩ := h.arr
  obtain ⟨hdim, hi, hu⟩ := h.compat
  refine ⟨d.map (· * (R.unit s.unit).fromBase ((R.unit i).toBase 1)), ?_, by simp [hl], ?_⟩
  · rw [readQ, conv_same _ _ hdim.symm, hd]
    simp only [mapNum_flt (fun x => some (x * (R.unit s.unit).fromBase ((R.unit i).toBase 1)))
      (fun x => x * (R.unit s.unit).fromBase ((R.unit i).toBase 1)) shape d fun _ _ => rfl]
  · rw [storeQ, mapNum_flt _ (fun x => x * ((R.unit s.unit).fromBase ((R.unit i).toBase 1))⁻¹) shape]
    · simp only [List.map_map]
      have : d.map (Elem.flt ∘ (fun x => x * ((R.unit s.unit).fromBase ((R.unit i).toBase 1))⁻¹) ∘
          fun x => x * (R.unit s.unit).fromBase ((R.unit i).toBase 1)) = d.map Elem.flt := by
        apply List.map_congr_left
        intro x _
        have hne : (R.unit s.unit).fromBase ((R.unit i).toBase 1) ≠ 0 := by
          simp [PUnit'.fromBase, PUnit'.toBase, hi.2, hu.2, hi.1, hu.1]
        simp only [Function.comp_apply]
        rw [mul_assoc, mul_inv_cancel₀ hne, mul_one]
      rw [this, ← hd]
    · intro y hy
      obtain ⟨x, _, rfl⟩ := List.mem_map.1 hy
      rw [conv_back _ _ hdim hi hu]
      have hne : (R.unit s.unit).fromBase ((R.unit i).toBase 1) ≠ 0 := by
        simp [PUnit'.fromBase, PUnit'.toBase, hi.2, hu.2, hi.1, hu.1]
      rw [mul_assoc, mul_inv_cancel₀ hne, mul_one]

/-- The same for a scalar attribute read elementwise (temperature). -/
theorem readT_store (R : Registry U α) (i : U) (s : Stored U α) (h : s.ScalarWF R i) :
    ∃ y, readT R i s = .ok (.qty (.flt y) s.unit) ∧ storeQ R i (.qty (.flt y) s.unit) = .ok s := by
  obtain ⟨x, hx⟩ := h.flt
  obtain ⟨hdim, hi, hu⟩ := h.compat
  refine ⟨(R.unit s.unit).fromBase ((R.unit i).toBase x), ?_, ?_⟩
  · simp [readT, hx, PyVal.mapNum, conv_same _ _ hdim.symm]
  · simp [storeQ, PyVal.mapNum, conv_same _ _ hdim, toBase_fromBase _ hu.1, fromBase_toBase _ hi.1,
      ← hx]

theorem qtyMul_ok (R : Registry U α) (hR : R.Lawful) (v : PyVal U α) (u : U)
    (h : (R.unit u).offset = 0) : qtyMul R v (.str (R.render u)) = .ok (.qty v u) := by
  simp [qtyMul, hR u, h]

theorem check_cons_ok (o : PyObj String) (t : TypeSpec String) (s : ShapeSpec) (os ts ss)
    (h : checkOne o t s = .ok ()) : checkInputs (o :: os) (t :: ts) (s :: ss) = checkInputs os ts ss := by
  simp [checkInputs, h]

theorem check_nil (ts : List (TypeSpec String)) (ss) : checkInputs [] ts ss = .ok () := by
  simp [checkInputs]

/-- Checks of the kind `isinstance(v, T)` with a single expected shape. -/
theorem checkOne_exact (v : PyVal U α) (t : TypeSpec String) (sh : List Nat)
    (ht : v.pyType ∈ t.toList) (hs : v.shape? = some sh) :
    checkOne v.toObj t (.one (sh.map Int.ofNat)) = .ok () := by
  refine (checkOne_ok _ _ _).1.2 ⟨(typeAny_iff _ _).1 ?_, ?_⟩
  · rw [List.any_eq_true]
    exact ⟨_, ht, by simp [PyVal.toObj]⟩
  · intro s h
    simp only [PyVal.toObj, hs, Option.map_some, Option.some.injEq] at h
    subst h
    exact Or.inr ⟨by simp, fun i h1 h2 => Or.inr rfl⟩

theorem checkOne_noshape (v : PyVal U α) (t : TypeSpec String) (s : ShapeSpec)
    (ht : v.pyType ∈ t.toList) (hs : v.shape? = none) : checkOne v.toObj t s = .ok () := by
  refine (checkOne_ok _ _ _).1.2 ⟨(typeAny_iff _ _).1 ?_, ?_⟩
  · rw [List.any_eq_true]
    exact ⟨_, ht, by simp [PyVal.toObj]⟩
  · intro s h
    simp [PyVal.toObj, hs] at h

/-- Evaluates the handling of dictionaries with literal keys. -/
macro "dict_simp" "[" ls:Lean.Parser.Tactic.simpLemma,* "]" : tactic =>
  `(tactic| simp only [objToDict, dictEntry, List.flatMap_cons, List.flatMap_nil,
    processDict, List.foldl_nil, List.foldl_cons, List.foldlM_cons, List.foldlM_nil, processQuantity,
    dictPop, List.lookup, List.filter, bind, Except.bind, pure, Except.pure, dictGet,
    String.reduceAppend, String.reduceBEq, String.reduceBNe, List.cons_append, List.nil_append,
    Bool.false_and, Bool.true_and, Bool.false_eq_true, if_false, List.any_cons, List.any_nil,
    List.isEmpty_nil, List.append_nil, Bool.or_false, Bool.or_true, Bool.true_or, Bool.false_or, if_true, ite_true, ite_false,
    $ls,*])

/-! ## Crystal -/

theorem crystal_new (R : Registry U α) (I : Internals U) (c : CrystalO U α) (h : c.WF R I)
    (d1 d2 : List α)
    (s1 : storeQ R I.bohr (.qty (.arr ⟨[3, 3], d1.map .flt⟩) c.cellVectors.unit) = .ok c.cellVectors)
    (s2 : storeQ R I.electronMass (.qty (.arr ⟨[c.nAtoms], d2.map .flt⟩) c.atomMass.unit) =
      .ok c.atomMass) :
    CrystalO.new R I (.qty (.arr ⟨[3, 3], d1.map .flt⟩) c.cellVectors.unit) c.atomR c.atomType
      (.qty (.arr ⟨[c.nAtoms], d2.map .flt⟩) c.atomMass.unit) = .ok c := by
  obtain ⟨dr, hr, _⟩ := h.r
  obtain ⟨dt, ht, htl⟩ := h.t
  have hlen : c.atomR.len = .ok c.nAtoms := by simp [hr, PyVal.len, PyVal.shape?]
  have hfr : fixEmpty c.nAtoms c.atomR [0, 3] = c.atomR := by
    simp [fixEmpty, hr, PyVal.shape?]
  have hft : fixEmpty c.nAtoms c.atomType [0] = c.atomType := by
    unfold fixEmpty
    split
    · rename_i hc
      simp only [Bool.and_eq_true, decide_eq_true_eq] at hc
      rw [ht]
      have : dt = [] := List.length_eq_zero_iff.1 (by omega)
      simp [this, hc.1]
    · rfl
  have hchk : checkInputs
      [(PyVal.qty (.arr ⟨[3, 3], d1.map .flt⟩) c.cellVectors.unit : PyVal U α).toObj, c.atomR.toObj,
        c.atomType.toObj,
        (PyVal.qty (.arr ⟨[c.nAtoms], d2.map .flt⟩) c.atomMass.unit : PyVal U α).toObj]
      [.one "Quantity", .one "ndarray", .one "ndarray", .one "Quantity"]
      [.one [3, 3], .one [(c.nAtoms : Int), 3], .one [(c.nAtoms : Int)], .one [(c.nAtoms : Int)]] =
      .ok () := by
    rw [check_cons_ok, check_cons_ok, check_cons_ok, check_cons_ok, check_nil]
    · exact checkOne_exact _ _ [c.nAtoms] (by simp [PyVal.pyType, TypeSpec.toList]) rfl
    · exact checkOne_exact _ _ [c.nAtoms] (by simp [ht, PyVal.pyType, TypeSpec.toList])
        (by simp [ht, PyVal.shape?])
    · exact checkOne_exact _ _ [c.nAtoms, 3] (by simp [hr, PyVal.pyType, TypeSpec.toList])
        (by simp [hr, PyVal.shape?])
    · exact checkOne_exact _ _ [3, 3] (by simp [PyVal.pyType, TypeSpec.toList]) rfl
  unfold CrystalO.new
  simp only [hlen, bind, Except.bind, hfr, hft, hchk, s1, s2, pure, Except.pure]

theorem crystal_trip (R : Registry U α) (I : Internals U) (hR : R.Lawful) (c : CrystalO U α)
    (h : c.WF R I) : ∃ d, c.toDict R I = .ok d ∧ CrystalO.fromDict R I d = .ok c := by
  obtain ⟨d1, r1, l1, s1⟩ := read_store R I.bohr _ _ h.cv
  obtain ⟨d2, r2, l2, s2⟩ := read_store R I.electronMass _ _ h.m
  obtain ⟨dr, hr, _⟩ := h.r
  obtain ⟨dt, ht, htl⟩ := h.t
  have hn := crystal_new R I c h d1 d2 s1 s2
  refine ⟨_, by simp only [CrystalO.toDict, r1, r2, bind, Except.bind, pure, Except.pure]; rfl, ?_⟩
  simp only [hr, ht] at hn ⊢
  dict_simp [CrystalO.fromDict, qtyMul_ok R hR _ _ h.cv.compat.2.2.2,
    qtyMul_ok R hR _ _ h.m.compat.2.2.2]
  exact hn

/-- **C17**, `Crystal`: the dictionary of every crystal can be written and `from_dict` gives back the
same crystal, including units, also for structures without atoms. -/
theorem C17_crystal (R : Registry U α) (I : Internals U) (hR : R.Lawful) (c : CrystalO U α)
    (h : c.WF R I) : (c.toDict R I >>= CrystalO.fromDict R I) = .ok c := by
  obtain ⟨d, h1, h2⟩ := crystal_trip R I hR c h
  rw [h1]; exact h2

/-! ## DebyeWaller -/

/-- What the constructor of `DebyeWaller` guarantees, for a temperature scale without offset. -/
structure DebyeWallerO.WF (R : Registry U α) (I : Internals U) (o : DebyeWallerO U α) : Prop where
  crystal : o.crystal.WF R I
  dw : o.dw.WF R I.bohr2 [o.crystal.nAtoms, 3, 3]
  temperature : o.temperature.ScalarWF R I.kelvin

/-- **C17**, `DebyeWaller`, partial: temperatures in units without offset (kelvin).  Missing:
temperatures displayed in degrees Celsius or Fahrenheit, for which `from_dict` fails
(`C17_celsius_fails`). -/
theorem C17_debye_waller_partial (R : Registry U α) (I : Internals U) (hR : R.Lawful)
    (o : DebyeWallerO U α) (h : o.WF R I) :
    (o.toDict R I >>= DebyeWallerO.fromDict R I) = .ok o := by
  obtain ⟨dc, c1, c2⟩ := crystal_trip R I hR _ h.crystal
  obtain ⟨d1, r1, l1, s1⟩ := read_store R I.bohr2 _ _ h.dw
  obtain ⟨y, r2, s2⟩ := readT_store R I.kelvin _ h.temperature
  have hchk : checkInputs
      [(PyVal.qty (.arr ⟨[o.crystal.nAtoms, 3, 3], d1.map .flt⟩) o.dw.unit : PyVal U α).toObj,
        (PyVal.qty (.flt y) o.temperature.unit : PyVal U α).toObj] [.one "Quantity", .one "Quantity"]
      [.one [(o.crystal.nAtoms : Int), 3, 3], .one []] = .ok () := by
    rw [check_cons_ok, check_cons_ok, check_nil]
    · exact checkOne_noshape _ _ _ (by simp [PyVal.pyType, TypeSpec.toList]) rfl
    · exact checkOne_exact _ _ [o.crystal.nAtoms, 3, 3] (by simp [PyVal.pyType, TypeSpec.toList]) rfl
  dict_simp [DebyeWallerO.toDict, c1, r1, r2, DebyeWallerO.fromDict, crystalOf, c2,
    qtyMul_ok R hR _ _ h.dw.compat.2.2.2, qtyMul_ok R hR _ _ h.temperature.compat.2.2.2,
    DebyeWallerO.new, hchk, s1, s2]

/-- **C17**, finding: if the temperature is displayed in a unit with an offset (degrees Celsius),
`to_dict` succeeds but `from_dict` of the result raises, for every Debye-Waller object. -/
theorem C17_celsius_fails (R : Registry U α) (I : Internals U) (hR : R.Lawful)
    (o : DebyeWallerO U α) (hc : o.crystal.WF R I)
    (hw : o.dw.WF R I.bohr2 [o.crystal.nAtoms, 3, 3]) (x : α) (hx : o.temperature.mag = .flt x)
    (hd : (R.unit o.temperature.unit).dim = (R.unit I.kelvin).dim)
    (hoff : (R.unit o.temperature.unit).offset ≠ 0) :
    ∃ d, o.toDict R I = .ok d ∧ DebyeWallerO.fromDict R I d = .error .offsetUnitError := by
  obtain ⟨dc, c1, c2⟩ := crystal_trip R I hR _ hc
  obtain ⟨d1, r1, l1, s1⟩ := read_store R I.bohr2 _ _ hw
  have r2 : readT R I.kelvin o.temperature = .ok (.qty (.flt ((R.unit o.temperature.unit).fromBase
      ((R.unit I.kelvin).toBase x))) o.temperature.unit) := by
    simp [readT, hx, PyVal.mapNum, conv_same _ _ hd.symm]
  have hq : ∀ v : PyVal U α, qtyMul R v (.str (R.render o.temperature.unit)) =
      .error .offsetUnitError := by
    intro v
    simp [qtyMul, hR o.temperature.unit, hoff]
  refine ⟨_, by dict_simp [DebyeWallerO.toDict, c1, r1, r2]; rfl, ?_⟩
  dict_simp [DebyeWallerO.fromDict, crystalOf, c2, qtyMul_ok R hR _ _ hw.compat.2.2.2, hq]

/-! ## QpointFrequencies, QpointPhononModes, StructureFactor -/

/-- What the constructor of `QpointFrequencies` guarantees. -/
structure QpointFreqsO.WF (R : Registry U α) (I : Internals U) (nb : Nat) (o : QpointFreqsO U α) :
    Prop where
  crystal : o.crystal.WF R I
  qpts : ElemArr o.qpts [o.nQpts, 3]
  freqs : o.freqs.WF R I.hartree [o.nQpts, nb]
  weights : ElemArr o.weights [o.nQpts]

theorem checkOne_anylast (v : PyVal U α) (t : TypeSpec String) (n m : Nat)
    (ht : v.pyType ∈ t.toList) (hs : v.shape? = some [n, m]) :
    checkOne v.toObj t (.one [(n : Int), -1]) = .ok () := by
  refine (checkOne_ok _ _ _).1.2 ⟨(typeAny_iff _ _).1 ?_, ?_⟩
  · rw [List.any_eq_true]
    exact ⟨_, ht, by simp [PyVal.toObj]⟩
  · intro s h
    simp only [PyVal.toObj, hs, Option.map_some, Option.some.injEq] at h
    subst h
    refine Or.inr ⟨by simp, fun i h1 h2 => ?_⟩
    match i, h1 with
    | 0, _ => exact Or.inr rfl
    | 1, _ => exact Or.inl rfl

theorem checkOne_anyfirst (v : PyVal U α) (t : TypeSpec String) (n m : Nat)
    (ht : v.pyType ∈ t.toList) (hs : v.shape? = some [n, m]) :
    checkOne v.toObj t (.one [-1, (m : Int)]) = .ok () := by
  refine (checkOne_ok _ _ _).1.2 ⟨(typeAny_iff _ _).1 ?_, ?_⟩
  · rw [List.any_eq_true]
    exact ⟨_, ht, by simp [PyVal.toObj]⟩
  · intro s h
    simp only [PyVal.toObj, hs, Option.map_some, Option.some.injEq] at h
    subst h
    refine Or.inr ⟨by simp, fun i h1 h2 => ?_⟩
    match i, h1 with
    | 0, _ => exact Or.inl rfl
    | 1, _ => exact Or.inr rfl

theorem freqs_new (R : Registry U α) (I : Internals U) (nb : Nat) (o : QpointFreqsO U α)
    (h : o.WF R I nb) (d1 : List α)
    (s1 : storeQ R I.hartree (.qty (.arr ⟨[o.nQpts, nb], d1.map .flt⟩) o.freqs.unit) = .ok o.freqs) :
    QpointFreqsO.new R I o.crystal o.qpts (.qty (.arr ⟨[o.nQpts, nb], d1.map .flt⟩) o.freqs.unit)
      o.weights = .ok o := by
  obtain ⟨dq, hq, _⟩ := h.qpts
  obtain ⟨dw, hw, _⟩ := h.weights
  have hlen : o.qpts.len = .ok o.nQpts := by simp [hq, PyVal.len, PyVal.shape?]
  have hc1 : checkInputs [o.qpts.toObj] [.one "ndarray"] [.one [-1, 3]] = .ok () := by
    rw [check_cons_ok, check_nil]
    exact checkOne_anyfirst _ _ o.nQpts 3 (by simp [hq, PyVal.pyType, TypeSpec.toList])
      (by simp [hq, PyVal.shape?])
  have hc2 : checkInputs
      [(PyVal.qty (.arr ⟨[o.nQpts, nb], d1.map .flt⟩) o.freqs.unit : PyVal U α).toObj,
        o.weights.toObj] [.one "Quantity", .many ["ndarray", "NoneType"]]
      [.one [(o.nQpts : Int), -1], .one [(o.nQpts : Int)]] = .ok () := by
    rw [check_cons_ok, check_cons_ok, check_nil]
    · exact checkOne_exact _ _ [o.nQpts] (by simp [hw, PyVal.pyType, TypeSpec.toList])
        (by simp [hw, PyVal.shape?])
    · exact checkOne_anylast _ _ _ nb (by simp [PyVal.pyType, TypeSpec.toList]) rfl
  have hwo : weightsOr o.nQpts o.weights = .ok o.weights := by simp [weightsOr, hw]
  unfold QpointFreqsO.new
  simp only [hlen, bind, Except.bind, hc1, hc2, s1, hwo, pure, Except.pure]

/-- **C17**, `QpointFrequencies`. -/
theorem C17_qpoint_frequencies (R : Registry U α) (I : Internals U) (hR : R.Lawful) (nb : Nat)
    (o : QpointFreqsO U α) (h : o.WF R I nb) :
    (o.toDict R I >>= QpointFreqsO.fromDict R I) = .ok o := by
  obtain ⟨dc, c1, c2⟩ := crystal_trip R I hR _ h.crystal
  obtain ⟨d1, r1, l1, s1⟩ := read_store R I.hartree _ _ h.freqs
  have hn := freqs_new R I nb o h d1 s1
  obtain ⟨dq, hq, _⟩ := h.qpts
  obtain ⟨dw, hw, _⟩ := h.weights
  simp only [hq, hw] at hn
  dict_simp [QpointFreqsO.toDict, c1, r1, hq, hw, QpointFreqsO.fromDict, crystalOf, c2,
    qtyMul_ok R hR _ _ h.freqs.compat.2.2.2]
  exact hn

/-- What the constructor of `QpointPhononModes` guarantees. -/
structure ModesO.WF (R : Registry U α) (I : Internals U) (o : ModesO U α) : Prop where
  base : o.base.WF R I (3 * o.base.crystal.nAtoms)
  evecs : ∃ d : List (α × α), o.evecs =
    .carr ⟨[o.base.nQpts, 3 * o.base.crystal.nAtoms, o.base.crystal.nAtoms, 3], d⟩

/-- **C17**, `QpointPhononModes`. -/
theorem C17_qpoint_phonon_modes (R : Registry U α) (I : Internals U) (hR : R.Lawful)
    (o : ModesO U α) (h : o.WF R I) : (o.toDict R I >>= ModesO.fromDict R I) = .ok o := by
  obtain ⟨dc, c1, c2⟩ := crystal_trip R I hR _ h.base.crystal
  obtain ⟨d1, r1, l1, s1⟩ := read_store R I.hartree _ _ h.base.freqs
  have hn := freqs_new R I _ o.base h.base d1 s1
  obtain ⟨dq, hq, _⟩ := h.base.qpts
  obtain ⟨dw, hw, _⟩ := h.base.weights
  obtain ⟨de, he⟩ := h.evecs
  have hc : checkInputs
      [(PyVal.qty (.arr ⟨[o.base.nQpts, 3 * o.base.crystal.nAtoms], d1.map .flt⟩)
        o.base.freqs.unit : PyVal U α).toObj, o.evecs.toObj] [.one "Quantity", .one "ndarray"]
      [.one [(o.base.nQpts : Int), ((3 * o.base.crystal.nAtoms : Nat) : Int)],
        .one [(o.base.nQpts : Int), ((3 * o.base.crystal.nAtoms : Nat) : Int),
          (o.base.crystal.nAtoms : Int), 3]] = .ok () := by
    rw [check_cons_ok, check_cons_ok, check_nil]
    · exact checkOne_exact _ _ [o.base.nQpts, 3 * o.base.crystal.nAtoms, o.base.crystal.nAtoms, 3]
        (by simp [he, PyVal.pyType, TypeSpec.toList]) (by simp [he, PyVal.shape?])
    · exact checkOne_exact _ _ [o.base.nQpts, 3 * o.base.crystal.nAtoms]
        (by simp [PyVal.pyType, TypeSpec.toList]) rfl
  simp only [hq, hw] at hn
  simp only [he] at hc
  obtain ⟨b, ev⟩ := o
  have hfr := h.base.freqs.compat.2.2.2
  dsimp only at *
  subst he
  dict_simp [ModesO.toDict, c1, r1, hq, hw, ModesO.fromDict, crystalOf, c2,
    qtyMul_ok R hR _ _ hfr, ModesO.new, hn, hc]

/-- What the constructor of `StructureFactor` guarantees, for temperature scales without offset. -/
structure StructFacO.WF (R : Registry U α) (I : Internals U) (o : StructFacO U α) : Prop where
  base : o.base.WF R I (3 * o.base.crystal.nAtoms)
  sf : o.sf.WF R I.bohr2 [o.base.nQpts, 3 * o.base.crystal.nAtoms]
  temperature : ∀ t, o.temperature = some t → t.ScalarWF R I.kelvin

/-- **C17**, `StructureFactor`, with or without temperature; partial for the same reason as
`C17_debye_waller_partial`. -/
theorem C17_structure_factor_partial (R : Registry U α) (I : Internals U) (hR : R.Lawful)
    (o : StructFacO U α) (h : o.WF R I) : (o.toDict R I >>= StructFacO.fromDict R I) = .ok o := by
  obtain ⟨dc, c1, c2⟩ := crystal_trip R I hR _ h.base.crystal
  obtain ⟨d1, r1, l1, s1⟩ := read_store R I.hartree _ _ h.base.freqs
  obtain ⟨d2, r2, l2, s2⟩ := read_store R I.bohr2 _ _ h.sf
  have hn := freqs_new R I _ o.base h.base d1 s1
  obtain ⟨dq, hq, _⟩ := h.base.qpts
  obtain ⟨dw, hw, _⟩ := h.base.weights
  simp only [hq, hw] at hn
  have hc : ∀ t : PyVal U α, t.pyType ∈ ["Quantity", "NoneType"] → t.shape? = none → checkInputs
      [(PyVal.qty (.arr ⟨[o.base.nQpts, 3 * o.base.crystal.nAtoms], d1.map .flt⟩)
        o.base.freqs.unit : PyVal U α).toObj,
        (PyVal.qty (.arr ⟨[o.base.nQpts, 3 * o.base.crystal.nAtoms], d2.map .flt⟩)
        o.sf.unit : PyVal U α).toObj, t.toObj]
      [.one "Quantity", .one "Quantity", .many ["Quantity", "NoneType"]]
      [.one [(o.base.nQpts : Int), ((3 * o.base.crystal.nAtoms : Nat) : Int)],
        .one [(o.base.nQpts : Int), ((3 * o.base.crystal.nAtoms : Nat) : Int)], .one []] = .ok () := by
    intro t h1 h2
    rw [check_cons_ok, check_cons_ok, check_cons_ok, check_nil]
    · exact checkOne_noshape _ _ _ h1 h2
    · exact checkOne_exact _ _ [o.base.nQpts, 3 * o.base.crystal.nAtoms]
        (by simp [PyVal.pyType, TypeSpec.toList]) rfl
    · exact checkOne_exact _ _ [o.base.nQpts, 3 * o.base.crystal.nAtoms]
        (by simp [PyVal.pyType, TypeSpec.toList]) rfl
  have hfr := h.base.freqs.compat.2.2.2
  have hsf := h.sf.compat.2.2.2
  have htemp := h.temperature
  obtain ⟨b, sf, temp⟩ := o
  dsimp only at *
  cases temp with
  | none =>
    have hc' := hc .none (by simp [PyVal.pyType]) rfl
    dict_simp [StructFacO.toDict, c1, r1, r2, hq, hw, StructFacO.readTemp, StructFacO.fromDict,
      crystalOf, c2, qtyMul_ok R hR _ _ hfr,
      qtyMul_ok R hR _ _ hsf, StructFacO.new, hn, hc', s2, storeOpt]
  | some t =>
    obtain ⟨y, r3, s3⟩ := readT_store R I.kelvin _ (htemp t rfl)
    have hc' := hc (.qty (.flt y) t.unit) (by simp [PyVal.pyType]) rfl
    dict_simp [StructFacO.toDict, c1, r1, r2, r3, hq, hw, StructFacO.readTemp, StructFacO.fromDict,
      crystalOf, c2, qtyMul_ok R hR _ _ hfr,
      qtyMul_ok R hR _ _ hsf, qtyMul_ok R hR _ _ (htemp t rfl).compat.2.2.2,
      StructFacO.new, hn, hc', s2, s3, storeOpt, Except.map]

/-! ## ForceConstants -/

/-- What the constructor of `ForceConstants` guarantees when Born charges and dielectric tensor are
given together or not at all. -/
structure FcO.WF (R : Registry U α) (I : Internals U) (nSc : PyVal U α → Nat) (f : FcO U α) :
    Prop where
  crystal : f.crystal.WF R I
  fc : f.fc.WF R I.fc [f.nCells, 3 * f.crystal.nAtoms, 3 * f.crystal.nAtoms]
  sc : ElemArr f.scMatrix [3, 3]
  nCells : f.nCells = nSc f.scMatrix
  origins : ElemArr f.cellOrigins [f.nCells, 3]
  pol : (f.born = none ∧ f.diel = .absent) ∨ ∃ b d, f.born = some b ∧ f.diel = .stored d ∧
    b.WF R I.charge [f.crystal.nAtoms, 3, 3] ∧ d.WF R I.diel [3, 3]

/-- **C17**, `ForceConstants`: with or without Born charges and dielectric tensor.  (Partial: a
dielectric tensor without Born charges, see `C17_dielectric_without_born`.) -/
theorem C17_force_constants_partial (R : Registry U α) (I : Internals U) (hR : R.Lawful)
    (mul : U → U → U) (nSc : PyVal U α → Nat) (f : FcO U α) (h : f.WF R I nSc) :
    (f.toDict R I mul >>= FcO.fromDict R I nSc) = .ok f := by
  obtain ⟨dc, c1, c2⟩ := crystal_trip R I hR _ h.crystal
  obtain ⟨d1, r1, l1, s1⟩ := read_store R I.fc _ _ h.fc
  obtain ⟨ds, hs, _⟩ := h.sc
  obtain ⟨dO, ho, _⟩ := h.origins
  have hn := h.nCells
  have hpol := h.pol
  have hfc := h.fc.compat.2.2.2
  have hc1 : checkInputs [f.scMatrix.toObj] [.one "ndarray"] [.one [3, 3]] = .ok () := by
    rw [check_cons_ok, check_nil]
    exact checkOne_exact _ _ [3, 3] (by simp [hs, PyVal.pyType, TypeSpec.toList])
      (by simp [hs, PyVal.shape?])
  have hc2 : ∀ b d : PyVal U α,
      (b = .none ∧ d = .none ∨ ∃ b' d' u w, b = .qty (.arr ⟨[f.crystal.nAtoms, 3, 3], b'⟩) u ∧
        d = .qty (.arr ⟨[3, 3], d'⟩) w) →
      checkInputs [(PyVal.qty (.arr ⟨[f.nCells, 3 * f.crystal.nAtoms, 3 * f.crystal.nAtoms],
        d1.map .flt⟩) f.fc.unit : PyVal U α).toObj, f.cellOrigins.toObj, b.toObj, d.toObj]
      [.one "Quantity", .one "ndarray", .many ["Quantity", "NoneType"],
        .many ["Quantity", "NoneType"]]
      [.one [(f.nCells : Int), ((3 * f.crystal.nAtoms : Nat) : Int),
          ((3 * f.crystal.nAtoms : Nat) : Int)], .one [(f.nCells : Int), 3],
        .one [(f.crystal.nAtoms : Int), 3, 3], .one [3, 3]] = .ok () := by
    intro b d hbd
    rw [check_cons_ok, check_cons_ok, check_cons_ok, check_cons_ok, check_nil]
    · rcases hbd with ⟨rfl, rfl⟩ | ⟨b', d', u, w, rfl, rfl⟩
      · exact checkOne_noshape _ _ _ (by simp [PyVal.pyType, TypeSpec.toList]) rfl
      · exact checkOne_exact _ _ [3, 3] (by simp [PyVal.pyType, TypeSpec.toList]) rfl
    · rcases hbd with ⟨rfl, rfl⟩ | ⟨b', d', u, w, rfl, rfl⟩
      · exact checkOne_noshape _ _ _ (by simp [PyVal.pyType, TypeSpec.toList]) rfl
      · exact checkOne_exact _ _ [f.crystal.nAtoms, 3, 3] (by simp [PyVal.pyType, TypeSpec.toList])
          rfl
    · exact checkOne_exact _ _ [f.nCells, 3] (by simp [ho, PyVal.pyType, TypeSpec.toList])
        (by simp [ho, PyVal.shape?])
    · exact checkOne_exact _ _ [f.nCells, 3 * f.crystal.nAtoms, 3 * f.crystal.nAtoms]
        (by simp [PyVal.pyType, TypeSpec.toList]) rfl
  obtain ⟨cr, fc, n, sc, oo, born, diel⟩ := f
  simp only at *
  subst hs ho
  rcases hpol with ⟨rfl, rfl⟩ | ⟨b, d, rfl, rfl, hb, hd⟩
  · have hc3 := hc2 .none .none (Or.inl ⟨rfl, rfl⟩)
    dict_simp [FcO.toDict, c1, r1, FcO.readBorn, FcO.readDiel, FcO.fromDict, crystalOf, c2,
      qtyMul_ok R hR _ _ hfc, FcO.new, hc1, ← hn, hc3, s1]
  · obtain ⟨d2, r2, l2, s2⟩ := read_store R I.charge _ _ hb
    obtain ⟨d3, r3, l3, s3⟩ := read_store R I.diel _ _ hd
    have hc3 := hc2 (.qty (.arr ⟨[cr.nAtoms, 3, 3], d2.map .flt⟩) b.unit)
      (.qty (.arr ⟨[3, 3], d3.map .flt⟩) d.unit) (Or.inr ⟨_, _, _, _, rfl, rfl⟩)
    dict_simp [FcO.toDict, c1, r1, r2, r3, FcO.readBorn, FcO.readDiel, FcO.fromDict, crystalOf, c2,
      qtyMul_ok R hR _ _ hfc, qtyMul_ok R hR _ _ hb.compat.2.2.2,
      qtyMul_ok R hR _ _ hd.compat.2.2.2, FcO.new, hc1, ← hn, hc3, s1, s2, s3]

/-- **C17**, finding: a dielectric tensor given without Born charges is accepted, but reads in the
wrong unit (its unit multiplied by the internal unit). -/
theorem C17_dielectric_without_born (R : Registry U α) (I : Internals U) (mul : U → U → U)
    (nSc : PyVal U α → Nat) (c : CrystalO U α) (fc sc o v : PyVal U α) (u : U) (f : FcO U α)
    (h : FcO.new R I nSc c fc sc o .none (.qty v u) = .ok f) :
    f.readDiel R I mul = .ok (.qty v (mul u I.diel)) := by
  unfold FcO.new at h
  simp only [bind, Except.bind, pure, Except.pure] at h
  split at h
  · simp at h
  · split at h
    · simp at h
    · split at h
      · simp at h
      · simp only [Except.ok.injEq] at h
        rw [← h]
        rfl

/-! ## Spectra -/

/-- A data attribute of a spectrum holding a float array of the given shape. -/
structure SpecQ.WF (R : Registry U α) (shape : List Nat) (q : SpecQ U α) : Prop where
  arr : FloatArr q.mag shape
  compat : R.Compat q.internal q.unit

/-- What the constructors of the spectrum classes guarantee: `n` entries in collections, `nx` and `ny`
points (the axes may hold one more element: bin edges). -/
structure SpecO.WF (R : Registry U α) (s : SpecO U α) : Prop where
  shapes : ∃ n nx ny : Nat, ∃ ex ey : Bool,
    match s.cls, s.z with
    | .spectrum1D, none => s.x.WF R [nx + ex.toNat] ∧ s.y.WF R [nx] ∧
        checkMd s.cls (some [nx]) s.md = .ok ()
    | .spectrum1DCollection, none => s.x.WF R [nx + ex.toNat] ∧ s.y.WF R [n + 1, nx] ∧
        checkMd s.cls (some [n + 1, nx]) s.md = .ok ()
    | .spectrum2D, some z => s.x.WF R [nx + ex.toNat] ∧ s.y.WF R [ny + ey.toNat] ∧
        z.WF R [nx, ny] ∧ checkMd s.cls (some [nx, ny]) s.md = .ok ()
    | .spectrum2DCollection, some z => s.x.WF R [nx + ex.toNat] ∧ s.y.WF R [ny + ey.toNat] ∧
        z.WF R [n, nx, ny] ∧ checkMd s.cls (some [n, nx, ny]) s.md = .ok ()
    | _, _ => False
  ticks : setTicks s.ticks = .ok s.ticks

/-- The user sees the same: class, axes and data with their units, tick labels, metadata. -/
structure SpecO.Same (R : Registry U α) (s t : SpecO U α) : Prop where
  cls : s.cls = t.cls
  x : s.x.read R = t.x.read R
  y : s.y.read R = t.y.read R
  z : s.z.map (SpecQ.read R) = t.z.map (SpecQ.read R)
  ticks : s.ticks = t.ticks
  md : s.md = t.md

theorem specq_read (R : Registry U α) (shape : List Nat) (q : SpecQ U α) (h : q.WF R shape) :
    ∃ d : List α, ∃ q' : SpecQ U α,
      q.read R = .ok (.qty (.arr ⟨shape, d.map .flt⟩) q.unit) ∧
      SpecQ.new (.qty (.arr ⟨shape, d.map .flt⟩) q.unit) = .ok q' ∧ q'.read R = q.read R := by
  obtain ⟨d, hd, hl⟩ := h.arr
  obtain ⟨hdim, hi, hu⟩ := h.compat
  have hr : q.read R = .ok (.qty (.arr ⟨shape, (d.map fun x => (R.unit q.unit).fromBase
      ((R.unit q.internal).toBase x)).map .flt⟩) q.unit) := by
    rw [SpecQ.read, hd, mapNum_flt _ (fun x => (R.unit q.unit).fromBase
      ((R.unit q.internal).toBase x)) shape d fun x _ => convRs_same _ _ hdim.symm x]
  refine ⟨_, ⟨.arr ⟨shape, (d.map fun x => (R.unit q.unit).fromBase
      ((R.unit q.internal).toBase x)).map .flt⟩, q.unit, q.unit⟩, hr, ?_, ?_⟩
  · rw [SpecQ.new, mapNum_flt some id shape _ fun _ _ => rfl]
    simp
  · rw [hr, SpecQ.read, mapNum_flt _ id shape _ fun x _ => by
      rw [convRs_same _ _ rfl, fromBase_toBase _ hu.1]; rfl]
    simp

theorem check_axis (n : Nat) (e : Bool) (d : List (Elem α)) (u : U) :
    checkOne (PyVal.qty (.arr ⟨[n + e.toNat], d⟩) u : PyVal U α).toObj (.one "Quantity")
      (.many [[(n : Int)], [(n + 1 : Int)]]) = .ok () := by
  refine (checkOne_ok _ _ _).1.2 ⟨?_, ?_⟩
  · simp [TypeOk, PyVal.toObj, PyVal.pyType]
  · intro s h
    simp only [PyVal.toObj, PyVal.shape?, Option.map_some, Option.some.injEq] at h
    subst h
    refine Or.inr ?_
    cases e with
    | false =>
      refine ⟨[(n : Int)], by simp, by simp, fun i h1 h2 => Or.inr ?_⟩
      match i, h1 with
      | 0, _ => simp
    | true =>
      refine ⟨[(n + 1 : Int)], by simp, by simp, fun i h1 h2 => Or.inr ?_⟩
      match i, h1 with
      | 0, _ => simp

theorem check_main (shape : List Nat) (expected : List Int) (hl : expected.length = shape.length)
    (he : ∀ e ∈ expected, e = -1) (d : List (Elem α)) (u : U) (ticks md : PyVal U α)
    (ht : ticks = .none ∨ ∃ l, ticks = .list l) (hm : md = .none ∨ ∃ l, md = .dict l) :
    checkInputs [(PyVal.qty (.arr ⟨shape, d⟩) u : PyVal U α).toObj, ticks.toObj, md.toObj]
      [.one "Quantity", .many ["list", "NoneType"], .many ["dict", "NoneType"]]
      [.one expected, .one [], .one []] = .ok () := by
  rw [check_cons_ok, check_cons_ok, check_cons_ok, check_nil]
  · rcases hm with rfl | ⟨l, rfl⟩ <;>
    exact checkOne_noshape _ _ _ (by simp [PyVal.pyType, TypeSpec.toList]) rfl
  · rcases ht with rfl | ⟨l, rfl⟩ <;>
    exact checkOne_noshape _ _ _ (by simp [PyVal.pyType, TypeSpec.toList]) rfl
  · refine (checkOne_ok _ _ _).1.2 ⟨?_, ?_⟩
    · simp [TypeOk, PyVal.toObj, PyVal.pyType]
    · intro s h
      simp only [PyVal.toObj, PyVal.shape?, Option.map_some, Option.some.injEq] at h
      subst h
      exact Or.inr ⟨by simp [hl], fun i h1 h2 => Or.inl (he _ (List.getElem_mem h1))⟩

/-- **C17**, spectra of all four classes: for axes as points or edges, with or without tick labels and
metadata, in any display units (without offset), `from_dict(to_dict(s))` succeeds and shows the same
as `s`. -/
theorem C17_spectra (R : Registry U α) (hR : R.Lawful) (s : SpecO U α) (h : s.WF R) :
    ∃ t, (s.toDict R >>= SpecO.fromDict R s.cls) = .ok t ∧ t.Same R s := by
  obtain ⟨n, nx, ny, ex, ey, hs⟩ := h.shapes
  have hticks := h.ticks
  have htk : s.ticks = .none ∨ ∃ l, s.ticks = .list l := by
    cases hc : s.ticks <;> simp [hc, setTicks] at hticks ⊢
  -- the dictionary value of the metadata after `to_dict` and the default for missing keys
  obtain ⟨cls, x, y, z, ticks, md⟩ := s
  dsimp only at *
  have hmd : ∃ m : PyVal U α, (m = .none ∨ ∃ l, m = .dict l) ∧ mdOf m = md ∧
      ((md = [] ∧ m = .none) ∨ (md ≠ [] ∧ m = .dict md)) := by
    by_cases he : md = []
    · exact ⟨.none, Or.inl rfl, by simp [mdOf, he], Or.inl ⟨he, rfl⟩⟩
    · exact ⟨.dict md, Or.inr ⟨_, rfl⟩, rfl, Or.inr ⟨he, rfl⟩⟩
  obtain ⟨m, hm1, hm2, hm3⟩ := hmd
  match cls, z, hs with
  | .spectrum1D, none, ⟨hx, hy, hc⟩ =>
    obtain ⟨dx, x', rx, sx, ex'⟩ := specq_read R _ _ hx
    obtain ⟨dy, y', ry, sy, ey'⟩ := specq_read R _ _ hy
    have qx := qtyMul_ok R hR (.arr ⟨[nx + ex.toNat], dx.map .flt⟩) _ hx.compat.2.2.2
    have qy := qtyMul_ok R hR (.arr ⟨[nx], dy.map .flt⟩) _ hy.compat.2.2.2
    have hnew : SpecO.new .spectrum1D (.qty (.arr ⟨[nx + ex.toNat], dx.map .flt⟩) x.unit)
        (.qty (.arr ⟨[nx], dy.map .flt⟩) y.unit) .none ticks m =
        .ok ⟨.spectrum1D, x', y', none, ticks, md⟩ := by
      simp only [SpecO.new, mainData, mainShape, bind, Except.bind, pure, Except.pure,
        check_main [nx] [-1] rfl (by simp) _ _ _ _ htk hm1, PyVal.shape?, checkAxes,
        check_cons_ok _ _ _ _ _ _ (check_axis nx ex _ _), check_nil, sx, sy, hticks, newZ, hm2, hc]
    refine ⟨_, Eq.trans ?_ hnew, ⟨rfl, ex', ey', rfl, rfl, rfl⟩⟩
    have hnil : md.isEmpty = decide (md = []) := by cases md <;> simp
    rcases htk with rfl | ⟨l, rfl⟩ <;> rcases hm3 with ⟨he, rfl⟩ | ⟨he, rfl⟩ <;>
    dict_simp [SpecO.toDict, rx, ry, SpecO.fromDict, hnil, he, decide_true, decide_false, qx, qy]
  | .spectrum1DCollection, none, ⟨hx, hy, hc⟩ =>
    obtain ⟨dx, x', rx, sx, ex'⟩ := specq_read R _ _ hx
    obtain ⟨dy, y', ry, sy, ey'⟩ := specq_read R _ _ hy
    have qx := qtyMul_ok R hR (.arr ⟨[nx + ex.toNat], dx.map .flt⟩) _ hx.compat.2.2.2
    have qy := qtyMul_ok R hR (.arr ⟨[n + 1, nx], dy.map .flt⟩) _ hy.compat.2.2.2
    have hnew : SpecO.new .spectrum1DCollection (.qty (.arr ⟨[nx + ex.toNat], dx.map .flt⟩) x.unit)
        (.qty (.arr ⟨[n + 1, nx], dy.map .flt⟩) y.unit) .none ticks m =
        .ok ⟨.spectrum1DCollection, x', y', none, ticks, md⟩ := by
      simp only [SpecO.new, mainData, mainShape, bind, Except.bind, pure, Except.pure,
        check_main [n + 1, nx] [-1, -1] rfl (by simp) _ _ _ _ htk hm1, PyVal.shape?, checkAxes,
        Nat.succ_ne_zero, if_false,
        check_cons_ok _ _ _ _ _ _ (check_axis nx ex _ _), check_nil, sx, sy, hticks, newZ, hm2, hc]
    refine ⟨_, Eq.trans ?_ hnew, ⟨rfl, ex', ey', rfl, rfl, rfl⟩⟩
    have hnil : md.isEmpty = decide (md = []) := by cases md <;> simp
    rcases htk with rfl | ⟨l, rfl⟩ <;> rcases hm3 with ⟨he, rfl⟩ | ⟨he, rfl⟩ <;>
    dict_simp [SpecO.toDict, rx, ry, SpecO.fromDict, hnil, he, decide_true, decide_false, qx, qy]
  | .spectrum2D, some z, ⟨hx, hy, hz, hc⟩ =>
    obtain ⟨dx, x', rx, sx, ex'⟩ := specq_read R _ _ hx
    obtain ⟨dy, y', ry, sy, ey'⟩ := specq_read R _ _ hy
    obtain ⟨dz, z', rz, sz, ez'⟩ := specq_read R _ _ hz
    have qx := qtyMul_ok R hR (.arr ⟨[nx + ex.toNat], dx.map .flt⟩) _ hx.compat.2.2.2
    have qy := qtyMul_ok R hR (.arr ⟨[ny + ey.toNat], dy.map .flt⟩) _ hy.compat.2.2.2
    have qz := qtyMul_ok R hR (.arr ⟨[nx, ny], dz.map .flt⟩) _ hz.compat.2.2.2
    have hnew : SpecO.new .spectrum2D (.qty (.arr ⟨[nx + ex.toNat], dx.map .flt⟩) x.unit)
        (.qty (.arr ⟨[ny + ey.toNat], dy.map .flt⟩) y.unit)
        (.qty (.arr ⟨[nx, ny], dz.map .flt⟩) z.unit) ticks m =
        .ok ⟨.spectrum2D, x', y', some z', ticks, md⟩ := by
      simp only [SpecO.new, mainData, mainShape, bind, Except.bind, pure, Except.pure,
        check_main [nx, ny] [-1, -1] rfl (by simp) _ _ _ _ htk hm1, PyVal.shape?, checkAxes,
        check_cons_ok _ _ _ _ _ _ (check_axis nx ex _ _),
        check_cons_ok _ _ _ _ _ _ (check_axis ny ey _ _), check_nil, sx, sy, sz, hticks, newZ, hm2,
        hc, Except.map]
    refine ⟨_, Eq.trans ?_ hnew, ⟨rfl, ex', ey', by simp [ez'], rfl, rfl⟩⟩
    have hnil : md.isEmpty = decide (md = []) := by cases md <;> simp
    rcases htk with rfl | ⟨l, rfl⟩ <;> rcases hm3 with ⟨he, rfl⟩ | ⟨he, rfl⟩ <;>
    dict_simp [SpecO.toDict, rx, ry, rz, SpecO.fromDict, hnil, he, decide_true, decide_false, qx, qy,
      qz]
  | .spectrum2DCollection, some z, ⟨hx, hy, hz, hc⟩ =>
    obtain ⟨dx, x', rx, sx, ex'⟩ := specq_read R _ _ hx
    obtain ⟨dy, y', ry, sy, ey'⟩ := specq_read R _ _ hy
    obtain ⟨dz, z', rz, sz, ez'⟩ := specq_read R _ _ hz
    have qx := qtyMul_ok R hR (.arr ⟨[nx + ex.toNat], dx.map .flt⟩) _ hx.compat.2.2.2
    have qy := qtyMul_ok R hR (.arr ⟨[ny + ey.toNat], dy.map .flt⟩) _ hy.compat.2.2.2
    have qz := qtyMul_ok R hR (.arr ⟨[n, nx, ny], dz.map .flt⟩) _ hz.compat.2.2.2
    have hnew : SpecO.new .spectrum2DCollection
        (.qty (.arr ⟨[nx + ex.toNat], dx.map .flt⟩) x.unit)
        (.qty (.arr ⟨[ny + ey.toNat], dy.map .flt⟩) y.unit)
        (.qty (.arr ⟨[n, nx, ny], dz.map .flt⟩) z.unit) ticks m =
        .ok ⟨.spectrum2DCollection, x', y', some z', ticks, md⟩ := by
      simp only [SpecO.new, mainData, mainShape, bind, Except.bind, pure, Except.pure,
        check_main [n, nx, ny] [-1, -1, -1] rfl (by simp) _ _ _ _ htk hm1, PyVal.shape?, checkAxes,
        check_cons_ok _ _ _ _ _ _ (check_axis nx ex _ _),
        check_cons_ok _ _ _ _ _ _ (check_axis ny ey _ _), check_nil, sx, sy, sz, hticks, newZ, hm2,
        hc, Except.map]
    refine ⟨_, Eq.trans ?_ hnew, ⟨rfl, ex', ey', by simp [ez'], rfl, rfl⟩⟩
    have hnil : md.isEmpty = decide (md = []) := by cases md <;> simp
    rcases htk with rfl | ⟨l, rfl⟩ <;> rcases hm3 with ⟨he, rfl⟩ | ⟨he, rfl⟩ <;>
    dict_simp [SpecO.toDict, rx, ry, rz, SpecO.fromDict, hnil, he, decide_true, decide_false, qx, qy,
      qz]

/-! ## Non-vacuity -/

/-- A registry with three units per dimension index (`n`: dimension `n / 3`, scale 1, 2 or 4). -/
def exReg : Registry (Fin 9) ℚ where
  unit n := ⟨.other (n.val / 3), 2 ^ (n.val % 3), 0⟩
  render n := ["a", "b", "c", "d", "e", "f", "g", "h", "i"].getD n.val ""
  parse s := (List.finRange 9).find? fun n =>
    ["a", "b", "c", "d", "e", "f", "g", "h", "i"].getD n.val "" == s

example : exReg.Lawful := by
  unfold Registry.Lawful
  decide

/-- A crystal with two atoms, displayed in units different from the internal ones. -/
example : ∃ c : CrystalO (Fin 9) ℚ, c.WF exReg ⟨0, 3, 6, 6, 6, 6, 6, 6⟩ ∧ c.nAtoms = 2 ∧
    c.cellVectors.unit = 1 := by
  refine ⟨⟨⟨.arr ⟨[3, 3], [1, 0, 0, 0, 2, 0, 0, 0, 3].map .flt⟩, 1⟩, 2,
    .arr ⟨[2, 3], [0, 0, 0, 1, 1, 1].map .flt⟩, .arr ⟨[2], ["Na", "Cl"].map .str⟩,
    ⟨.arr ⟨[2], [23, 35].map .flt⟩, 5⟩⟩, ⟨?_, ?_, ?_, ?_⟩, rfl, rfl⟩
  · exact ⟨⟨_, rfl, rfl⟩, by norm_num [Registry.Compat, exReg, PUnit'.Linear]⟩
  · exact ⟨_, rfl, rfl⟩
  · exact ⟨_, rfl, rfl⟩
  · refine ⟨⟨_, rfl, rfl⟩, ?_⟩
    norm_num [Registry.Compat, exReg, PUnit'.Linear]

/-- A collection of two spectra on bin edges with tick labels and line metadata. -/
example : ∃ s : SpecO (Fin 9) ℚ, s.WF exReg ∧ s.cls = .spectrum1DCollection ∧ s.md ≠ [] := by
  refine ⟨⟨.spectrum1DCollection, ⟨.arr ⟨[3], [0, 1, 2].map .flt⟩, 0, 1⟩,
    ⟨.arr ⟨[2, 2], [1, 2, 3, 4].map .flt⟩, 3, 3⟩, none, .list [.tuple [.int 0, .str "X"]],
    [("line_data", .list [.dict [], .dict [("label", .str "b")]])]⟩,
    ⟨⟨1, 2, 0, true, true, ?_⟩, by simp [setTicks]⟩, rfl, by simp⟩
  refine ⟨⟨⟨_, rfl, rfl⟩, ?_⟩, ⟨⟨_, rfl, rfl⟩, ?_⟩, ?_⟩
  · norm_num [Registry.Compat, exReg, PUnit'.Linear]
  · norm_num [Registry.Compat, exReg, PUnit'.Linear]
  · simp [checkMd, List.lookup, PyVal.len, bind, Except.bind]

end Euphonic.Py
