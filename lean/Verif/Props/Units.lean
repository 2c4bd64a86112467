import Verif.Prelude
import Verif.Model.Units

/-! # Properties C15, C16: scaling and unit changes -/

set_option autoImplicit false
set_option linter.unusedSectionVars false

namespace Euphonic

variable {α M : Type} [Field α]

/-! ## Lemmas -/

theorem mapM_option_some {β γ : Type} (f : β → Option γ) (g : β → γ) (l : List β)
    (h : ∀ b ∈ l, f b = some (g b)) : l.mapM f = some (l.map g) := by
  induction l with
  | nil => rfl
  | cons b l ih =>
    rw [List.mapM_cons, h b (by simp), ih fun c hc => h c (by simp [hc])]
    rfl

theorem conv_same (u w : PUnit' α) (h : u.dim = w.dim) (v : α) :
    conv u w v = some (w.fromBase (u.toBase v)) := by simp [conv, h]

theorem convRs_same (u w : PUnit' α) (h : u.dim = w.dim) (v : α) :
    convRs u w v = some (w.fromBase (u.toBase v)) := by
  unfold convRs
  split
  · rename_i h1 h2; simp [h1, h2] at h
  · rename_i h1 h2; simp [h1, h2] at h
  · exact conv_same u w h v

theorem fromBase_toBase (u : PUnit' α) (h : u.scale ≠ 0) (v : α) : u.fromBase (u.toBase v) = v := by
  unfold PUnit'.fromBase PUnit'.toBase
  field_simp
  ring

theorem toBase_fromBase (u : PUnit' α) (h : u.scale ≠ 0) (b : α) : u.toBase (u.fromBase b) = b := by
  unfold PUnit'.fromBase PUnit'.toBase
  field_simp
  ring

/-- Linear unit: no offset, scale different from zero. -/
def PUnit'.Linear (u : PUnit' α) : Prop := u.scale ≠ 0 ∧ u.offset = 0

/-- Units between which a user can convert without any physical interpretation: same dimension. -/
def PUnit'.Same (u w : PUnit' α) : Prop := u.dim = w.dim

/-! ## C16 -/

/-- One statement `obj.attr_unit = w`: the object afterwards (unchanged if the statement raised). -/
def FAttr.assignUnit (a : FAttr α) (w : PUnit' α) : FAttr α :=
  match a.setUnit w with
  | .ok a' => a'
  | .error _ => a

def QAttr.assignUnit (a : QAttr α) (w : PUnit' α) : QAttr α :=
  match a.setUnit w with
  | .ok a' => a'
  | .error _ => a

theorem checkUnit_other (cur new : PUnit' α) (n : Nat) (h : cur.dim = .other n) :
    (checkUnit cur new = .ok () ↔ new.dim = .other n) ∧
    (checkUnit cur new = .error .valueError ↔ new.dim ≠ .other n) := by
  by_cases hs : new.dim = .other n
  · have : convRs cur new 1 = some (new.fromBase (cur.toBase 1)) :=
      convRs_same cur new (by rw [h, hs]) 1
    simp [checkUnit, this, hs]
  · have hne : ¬ cur.dim = new.dim := by rw [h]; exact fun e => hs e.symm
    have : convRs cur new 1 = none := by
      unfold convRs
      split
      · rename_i h1 _; rw [h1] at h; cases h
      · rename_i h1 _; rw [h1] at h; cases h
      · unfold conv
        rw [if_neg hne]
        split
        · rename_i h1 _; rw [h1] at h; cases h
        · rename_i h1 _; rw [h1] at h; cases h
        · rfl
    simp [checkUnit, this, hs]

/-- **C16** (masses, charges, force constants, structure factors, Debye-Waller exponents, ...: every
attribute whose dimension is none of energy, length, 1/energy).  A unit assignment is accepted iff
the dimension is the same and raises `ValueError` otherwise; after any sequence of unit assignments
(accepted or refused) the stored data are unchanged and reading gives, in the current unit, the same
physical values. -/
theorem C16_unit_changes_other_dims (a : FAttr α) (n : Nat) (hi : a.internal.dim = .other n)
    (hu : a.unit.dim = .other n) (hil : a.internal.Linear) (ws : List (PUnit' α))
    (hul : a.unit.Linear) (hwl : ∀ w ∈ ws, w.Linear) :
    let b := ws.foldl FAttr.assignUnit a
    b.data = a.data ∧ b.internal = a.internal ∧ b.unit.dim = .other n ∧
    (∃ l, b.get = .ok l ∧ l.map b.unit.toBase = a.data.map a.internal.toBase) ∧
    (∀ w, (b.setUnit w = .ok { b with unit := w } ↔ w.dim = .other n) ∧
      (b.setUnit w = .error .valueError ↔ w.dim ≠ .other n)) := by
  have hinv : ∀ (ws : List (PUnit' α)) (a : FAttr α), a.unit.dim = .other n → a.unit.Linear →
      (∀ w ∈ ws, w.Linear) →
      (ws.foldl FAttr.assignUnit a).data = a.data ∧
      (ws.foldl FAttr.assignUnit a).internal = a.internal ∧
      (ws.foldl FAttr.assignUnit a).unit.dim = .other n ∧
      (ws.foldl FAttr.assignUnit a).unit.Linear := by
    intro ws
    induction ws with
    | nil => intro a h1 h2 _; exact ⟨rfl, rfl, h1, h2⟩
    | cons w ws ih =>
      intro a h1 h2 h3
      rw [List.foldl_cons]
      have hc := checkUnit_other a.unit w n h1
      by_cases hw : w.dim = .other n
      · have : a.assignUnit w = { a with unit := w } := by
          simp [FAttr.assignUnit, FAttr.setUnit, hc.1.2 hw, bind, Except.bind, pure, Except.pure]
        rw [this]
        have := ih { a with unit := w } hw (h3 w (by simp)) fun v hv => h3 v (by simp [hv])
        exact this
      · have : a.assignUnit w = a := by
          simp [FAttr.assignUnit, FAttr.setUnit, hc.2.2 hw, bind, Except.bind]
        rw [this]
        exact ih a h1 h2 fun v hv => h3 v (by simp [hv])
  intro b
  obtain ⟨h1, h2, h3, h4⟩ := hinv ws a hu hul hwl
  refine ⟨h1, h2, h3, ?_, ?_⟩
  · have hdim : b.internal.dim = b.unit.dim := by rw [h2, hi, h3]
    refine ⟨_, by rw [FAttr.get, conv_same _ _ hdim], ?_⟩
    rw [List.map_map, h1]
    apply List.map_congr_left
    intro v _
    obtain ⟨hs, ho⟩ := h4
    obtain ⟨his, hio⟩ := hil
    rw [← h2] at his hio
    change b.unit.toBase (v * b.unit.fromBase (b.internal.toBase 1)) = a.internal.toBase v
    rw [← h2]
    unfold PUnit'.toBase PUnit'.fromBase
    rw [show b.unit.offset = 0 from ho, hio]
    have : b.unit.scale ≠ 0 := hs
    field_simp
    ring
  · intro w
    have hc := checkUnit_other b.unit w n h3
    constructor
    · rw [← hc.1]
      unfold FAttr.setUnit
      cases checkUnit b.unit w with
      | ok u => simp [bind, Except.bind, pure, Except.pure]
      | error e => simp [bind, Except.bind]
    · rw [← hc.2]
      unfold FAttr.setUnit
      cases checkUnit b.unit w with
      | ok u => simp [bind, Except.bind, pure, Except.pure]
      | error e => simp [bind, Except.bind]

/-- **C16** for energies and lengths (frequencies, cell vectors), partial: as long as only units of the
attribute's own dimension are assigned, the data are unchanged and reading gives the same physical
values.  Missing for the full claim: units of the other dimension must be refused, which is false -
see `C16_reciprocal_unit_accepted_wrong`. -/
theorem C16_unit_changes_partial (a : FAttr α) (hu : a.unit.dim = a.internal.dim)
    (hil : a.internal.Linear) (hul : a.unit.Linear) (ws : List (PUnit' α))
    (hws : ∀ w ∈ ws, w.dim = a.internal.dim ∧ w.Linear) :
    let b := ws.foldl FAttr.assignUnit a
    b.data = a.data ∧ b.unit = (ws.getLast?).getD a.unit ∧
    ∃ l, b.get = .ok l ∧ l.map b.unit.toBase = a.data.map a.internal.toBase := by
  have hinv : ∀ (ws : List (PUnit' α)) (a : FAttr α), a.unit.dim = a.internal.dim → a.unit.Linear →
      (∀ w ∈ ws, w.dim = a.internal.dim ∧ w.Linear) →
      (ws.foldl FAttr.assignUnit a).data = a.data ∧
      (ws.foldl FAttr.assignUnit a).internal = a.internal ∧
      (ws.foldl FAttr.assignUnit a).unit.dim = a.internal.dim ∧
      (ws.foldl FAttr.assignUnit a).unit.Linear ∧
      (ws.foldl FAttr.assignUnit a).unit = (ws.getLast?).getD a.unit := by
    intro ws
    induction ws with
    | nil => intro a h1 h2 _; exact ⟨rfl, rfl, h1, h2, rfl⟩
    | cons w ws ih =>
      intro a h1 h2 h3
      rw [List.foldl_cons]
      obtain ⟨hw, hwl⟩ := h3 w (by simp)
      have hc : checkUnit a.unit w = .ok () := by
        simp [checkUnit, convRs_same a.unit w (by rw [h1, hw])]
      have : a.assignUnit w = { a with unit := w } := by
        simp [FAttr.assignUnit, FAttr.setUnit, hc, bind, Except.bind, pure, Except.pure]
      rw [this]
      obtain ⟨g1, g2, g3, g4, g5⟩ := ih { a with unit := w } hw hwl fun v hv => h3 v (by simp [hv])
      refine ⟨g1, g2, g3, g4, ?_⟩
      rw [g5]
      cases ws with
      | nil => rfl
      | cons v ws =>
        rw [List.getLast?_cons_cons]
        cases h : (v :: ws).getLast? with
        | none => simp at h
        | some x => rfl
  intro b
  obtain ⟨h1, h2, h3, h4, h5⟩ := hinv ws a hu hul hws
  refine ⟨h1, h5, ?_⟩
  have hdim : b.internal.dim = b.unit.dim := by rw [h2, ← h3]
  refine ⟨_, by rw [FAttr.get, conv_same _ _ hdim], ?_⟩
  rw [List.map_map, h1]
  apply List.map_congr_left
  intro v _
  obtain ⟨hs, ho⟩ := h4
  obtain ⟨his, hio⟩ := hil
  rw [← h2] at his hio
  change b.unit.toBase (v * b.unit.fromBase (b.internal.toBase 1)) = a.internal.toBase v
  rw [← h2]
  unfold PUnit'.toBase PUnit'.fromBase
  rw [show b.unit.offset = 0 from ho, hio]
  have : b.unit.scale ≠ 0 := hs
  field_simp
  ring

/-- **C16**, assignment of a quantity: after assigning a value with a unit of the same dimension,
reading gives exactly that value in that unit. -/
theorem C16_assign_read (a : FAttr α) (v : List α) (w : PUnit' α) (hu : a.unit.dim = a.internal.dim)
    (hw : w.dim = a.internal.dim) (hil : a.internal.Linear) (hwl : w.Linear) :
    ∃ b, a.set v w = (b, .ok ()) ∧ b.get = .ok v ∧ b.unit = w := by
  have hc : checkUnit a.unit w = .ok () := by
    simp [checkUnit, convRs_same a.unit w (by rw [hu, hw])]
  have hm : v.mapM (conv w a.internal) = some (v.map fun x => a.internal.fromBase (w.toBase x)) :=
    mapM_option_some _ _ _ fun x _ => conv_same w a.internal hw x
  refine ⟨⟨a.internal, v.map fun x => a.internal.fromBase (w.toBase x), w⟩, ?_, ?_, rfl⟩
  · simp [FAttr.set, FAttr.setUnit, hc, hm, bind, Except.bind, pure, Except.pure]
  · rw [FAttr.get, conv_same _ _ hw.symm]
    simp only [List.map_map]
    congr 1
    conv_rhs => rw [← List.map_id v]
    apply List.map_congr_left
    intro x _
    obtain ⟨his, hio⟩ := hil
    obtain ⟨hws, hwo⟩ := hwl
    simp only [Function.comp_apply, id, PUnit'.toBase, PUnit'.fromBase, hio, hwo]
    field_simp
    ring

/-- **C16**, finding.  Because the `spectroscopy` context is enabled globally, an energy unit is
accepted for a length attribute (e.g. `crystal.cell_vectors_unit = 'meV'`) and a length unit for
`frequencies`; the value then read is proportional to the stored data although the conversion is
reciprocal, so it is not the physical value, and a quantity that was assigned is not read back. -/
theorem C16_reciprocal_unit_accepted_wrong :
    ∃ (a : FAttr ℚ) (w : PUnit' ℚ), a.internal.Linear ∧ w.Linear ∧ a.unit = a.internal ∧
      w.dim ≠ a.internal.dim ∧ (∃ b, a.setUnit w = .ok b ∧
        b.get ≠ .ok (a.data.map fun v => (conv a.internal w v).getD 0)) ∧
      ∃ b, a.set [2] w = (b, .ok ()) ∧ b.get = .ok [1/2] := by
  refine ⟨⟨⟨.length, 1, 0⟩, [2], ⟨.length, 1, 0⟩⟩, ⟨.energy, 1, 0⟩, by simp [PUnit'.Linear],
    by simp [PUnit'.Linear], rfl, by simp, ⟨_, rfl, ?_⟩, ⟨_, rfl, ?_⟩⟩
  · simp only [FAttr.get, conv, PUnit'.toBase, PUnit'.fromBase, reduceCtorEq, if_false]
    norm_num
  · norm_num [FAttr.get, conv, PUnit'.toBase, PUnit'.fromBase, FAttr.setUnit]

/-- Non-vacuity of C16: atomic masses in electron masses, read in two other mass units. -/
example : ∃ (a : FAttr ℚ) (ws : List (PUnit' ℚ)), a.internal.dim = .other 3 ∧
    a.unit.dim = .other 3 ∧ a.internal.Linear ∧ a.unit.Linear ∧ (∀ w ∈ ws, w.Linear) ∧
    ws.length = 2 ∧ (ws.foldl FAttr.assignUnit a).get = .ok [1/10, 1/5] :=
  ⟨⟨⟨.other 3, 1, 0⟩, [1, 2], ⟨.other 3, 1, 0⟩⟩, [⟨.other 3, 5, 0⟩, ⟨.other 3, 10, 0⟩], rfl, rfl,
    by simp [PUnit'.Linear], by simp [PUnit'.Linear], by simp [PUnit'.Linear], rfl, by
      norm_num [List.foldl, FAttr.assignUnit, FAttr.setUnit, checkUnit, convRs, conv, FAttr.get,
        bind, Except.bind, pure, Except.pure, PUnit'.toBase, PUnit'.fromBase]⟩

/-- **C16** for spectrum axes, data and temperatures: after any sequence of unit assignments (accepted
or refused) the stored values are unchanged, so whenever the original unit is assigned again (and
accepted) the original reading is obtained. -/
theorem C16_spectrum_unit_changes (a b : QAttr α) (ws : List (PUnit' α))
    (hb : (ws.foldl QAttr.assignUnit a).setUnit a.unit = .ok b) :
    b.get = a.get ∧ b = a := by
  have hinv : ∀ (ws : List (PUnit' α)) (a : QAttr α),
      (ws.foldl QAttr.assignUnit a).data = a.data ∧
      (ws.foldl QAttr.assignUnit a).internal = a.internal := by
    intro ws
    induction ws with
    | nil => intro a; exact ⟨rfl, rfl⟩
    | cons w ws ih =>
      intro a
      rw [List.foldl_cons]
      have : (a.assignUnit w).data = a.data ∧ (a.assignUnit w).internal = a.internal := by
        unfold QAttr.assignUnit QAttr.setUnit
        cases checkUnit a.unit w <;> simp [bind, Except.bind, pure, Except.pure]
      rw [(ih _).1, (ih _).2]
      exact this
  obtain ⟨h1, h2⟩ := hinv ws a
  have : b = a := by
    unfold QAttr.setUnit at hb
    cases hc : checkUnit (ws.foldl QAttr.assignUnit a).unit a.unit with
    | ok u =>
      simp only [hc, bind, Except.bind, pure, Except.pure, Except.ok.injEq] at hb
      rw [← hb, h1, h2]
    | error e => simp [hc, bind, Except.bind] at hb
  exact ⟨by rw [this], this⟩

/-- **C16**, spectra: units between which the two contexts know no conversion are refused. -/
theorem C16_spectrum_unit_refused (a : QAttr α) (w : PUnit' α) :
    a.setUnit w = .error .valueError ↔ convRs a.unit w 1 = none := by
  unfold QAttr.setUnit checkUnit
  cases convRs a.unit w 1 <;> simp [bind, Except.bind, pure, Except.pure]

/-- **C16**, spectra: a value assigned with a unit of the same dimension is read back. -/
theorem C16_spectrum_assign_read (a : QAttr α) (v : List α) (w : PUnit' α)
    (hu : a.unit.dim = a.internal.dim) (hw : w.dim = a.internal.dim) (hil : a.internal.scale ≠ 0)
    (hwl : w.scale ≠ 0) :
    ∃ b, a.set v w = (b, .ok ()) ∧ b.get = .ok v ∧ b.unit = w := by
  have hc : checkUnit a.unit w = .ok () := by
    simp [checkUnit, convRs_same a.unit w (by rw [hu, hw])]
  have hm : v.mapM (conv w a.internal) = some (v.map fun x => a.internal.fromBase (w.toBase x)) :=
    mapM_option_some _ _ _ fun x _ => conv_same w a.internal hw x
  refine ⟨⟨a.internal, v.map fun x => a.internal.fromBase (w.toBase x), w⟩, ?_, ?_, rfl⟩
  · simp [QAttr.set, QAttr.setUnit, hc, hm, bind, Except.bind, pure, Except.pure]
  · have : (v.map fun x => a.internal.fromBase (w.toBase x)).mapM (convRs a.internal w) = some v := by
      rw [mapM_option_some _ (fun x => w.fromBase (a.internal.toBase x)) _
        fun x _ => convRs_same a.internal w hw.symm x, List.map_map]
      congr 1
      conv_rhs => rw [← List.map_id v]
      apply List.map_congr_left
      intro x _
      simp only [Function.comp_apply, id]
      rw [toBase_fromBase _ hil, fromBase_toBase _ hwl]
    rw [QAttr.get, this]

/-- Non-vacuity, with an offset unit (a temperature in degrees Celsius). -/
example : ∃ b, (⟨⟨.other 0, 1, 0⟩, [300], ⟨.other 0, 1, 0⟩⟩ : QAttr ℚ).set [25]
    ⟨.other 0, 1, 27315/100⟩ = (b, .ok ()) ∧ b.get = .ok [25] ∧ b.data = [29815/100] := by
  refine ⟨_, rfl, ?_, ?_⟩ <;>
  norm_num [QAttr.get, convRs, conv, PUnit'.toBase, PUnit'.fromBase, List.mapM_cons, QAttr.setUnit,
    pure, List.map]

/-- **C16**, finding: assigning a quantity is not atomic.  For `y_data` in 1/energy a value in length
units (the unit of a density of states per wavenumber) passes the unit check, because that uses the
`reciprocal_spectroscopy` context, and then fails in the conversion, which does not: the statement
raises, but the display unit has been changed. -/
theorem C16_failed_assignment_changes_unit :
    ∃ (a : QAttr ℚ) (v : List ℚ) (w : PUnit' ℚ) (e : Err), (a.set v w).2 = .error e ∧
      (a.set v w).1.unit ≠ a.unit := by
  refine ⟨.new [1] ⟨.recEnergy, 1, 0⟩, [1], ⟨.length, 1, 0⟩, .dimensionalityError, rfl, ?_⟩
  simp [QAttr.set, QAttr.setUnit, checkUnit, convRs, QAttr.new, conv, bind, Except.bind, pure,
    Except.pure, List.mapM_cons]

/-! ## C15 -/

/-- The intensities of a spectrum: `y_data` in one-dimensional classes, `z_data` in two-dimensional
ones, as seen by the user. -/
def AnySpec.intensities (s : AnySpec M α) : Except Err (List α) :=
  match s.cls with
  | .spectrum1D | .spectrum1DCollection => s.y.get
  | .spectrum2D | .spectrum2DCollection => s.z.get

/-- Everything else the user can see: class, axes, units, tick labels, metadata. -/
structure SameButIntensities (s t : AnySpec M α) : Prop where
  cls : s.cls = t.cls
  xget : s.x.get = t.x.get
  xunit : s.x.unit = t.x.unit
  yget : (s.cls = .spectrum2D ∨ s.cls = .spectrum2DCollection) → s.y.get = t.y.get
  yunit : s.y.unit = t.y.unit
  zunit : s.z.unit = t.z.unit
  ticks : s.ticks = t.ticks
  md : s.md = t.md

/-- A data attribute whose display unit has the dimension of its internal unit. -/
def QAttr.WF (a : QAttr α) : Prop :=
  a.unit.dim = a.internal.dim ∧ a.unit.scale ≠ 0 ∧ a.internal.scale ≠ 0 ∧
    a.unit.offset = 0 ∧ a.internal.offset = 0

def AnySpec.WF (s : AnySpec M α) : Prop := s.x.WF ∧ s.y.WF ∧ s.z.WF

theorem QAttr.get_ok (a : QAttr α) (h : a.WF) :
    a.get = .ok (a.data.map fun v => a.unit.fromBase (a.internal.toBase v)) := by
  rw [QAttr.get, mapM_option_some _ (fun v => a.unit.fromBase (a.internal.toBase v)) _
    fun x _ => convRs_same _ _ h.1.symm x]

theorem QAttr.get_new (v : List α) (u : PUnit' α) (h : u.scale ≠ 0) : (QAttr.new v u).get = .ok v := by
  have : v.mapM (convRs u u) = some v := by
    rw [mapM_option_some _ id _ fun x _ => by
      rw [convRs_same _ _ rfl, fromBase_toBase _ h]; rfl]
    simp
  simp [QAttr.get, QAttr.new, this]

theorem QAttr.get_scaled (a : QAttr α) (h : a.WF) (k : α) :
    ({ a with data := a.data.map (· * k) } : QAttr α).get = a.get.map (List.map (· * k)) := by
  rw [QAttr.get_ok a h, QAttr.get_ok _ (by exact h)]
  simp only [Except.map, List.map_map]
  congr 1
  apply List.map_congr_left
  intro v _
  obtain ⟨h1, h2, h3, h4, h5⟩ := h
  simp only [Function.comp_apply, PUnit'.fromBase, PUnit'.toBase, h4, h5]
  ring

theorem imul_2d_ok (s : AnySpec M α) (h : s.WF) (hc : s.cls = .spectrum2D) (k : α) :
    ∃ z', s.imul k = .ok { s with z := z' } ∧ z'.unit = s.z.unit ∧ z'.WF ∧
      z'.get = s.z.get.map (List.map (· * k)) := by
  obtain ⟨_, _, hz⟩ := h
  have hget := QAttr.get_ok s.z hz
  obtain ⟨z', hz', hg, hu⟩ := C16_spectrum_assign_read s.z
    ((s.z.data.map fun v => s.z.unit.fromBase (s.z.internal.toBase v)).map (· * k)) s.z.unit
    hz.1 hz.1 hz.2.2.1 hz.2.1
  have hint : z'.internal = s.z.internal := by
    have hc : checkUnit s.z.unit s.z.unit = .ok () := by
      simp [checkUnit, convRs_same s.z.unit s.z.unit rfl]
    unfold QAttr.set QAttr.setUnit at hz'
    simp only [hc, bind, Except.bind, pure, Except.pure] at hz'
    split at hz'
    · simp at hz'
    · simp only [Prod.mk.injEq, and_true] at hz'
      rw [← hz']
  refine ⟨z', ?_, hu, ?_, ?_⟩
  · unfold AnySpec.imul
    simp only [hc, hget, bind, Except.bind, hz']
    rfl
  · unfold QAttr.WF
    rw [hu, hint]; exact hz
  · rw [hg, hget]; rfl

/-- What `s *= k` does to an object of the three classes other than the 2-D collection. -/
theorem imul_spec (s : AnySpec M α) (h : s.WF) (hc : s.cls ≠ .spectrum2DCollection) (k : α) :
    ∃ t, s.imul k = .ok t ∧ t.WF ∧ SameButIntensities t s ∧
      t.intensities = s.intensities.map (List.map (· * k)) := by
  obtain ⟨hx, hy, hz⟩ := h
  have h1d : s.cls = .spectrum1D ∨ s.cls = .spectrum1DCollection →
      ∃ t, s.imul k = .ok t ∧ t.WF ∧ SameButIntensities t s ∧
        t.intensities = s.intensities.map (List.map (· * k)) := by
    intro hcc
    refine ⟨{ s with y := { s.y with data := s.y.data.map (· * k) } }, ?_, ⟨hx, hy, hz⟩, ?_, ?_⟩
    · rcases hcc with e | e <;> simp [AnySpec.imul, e]
    · refine ⟨rfl, rfl, rfl, ?_, rfl, rfl, rfl, rfl⟩
      rintro (e | e) <;> rcases hcc with e' | e' <;> rw [e'] at e <;> cases e
    · have := QAttr.get_scaled s.y hy k
      rcases hcc with e | e <;> simp [AnySpec.intensities, e, this]
  match hcl : s.cls, hc with
  | .spectrum1D, _ => exact h1d (Or.inl hcl)
  | .spectrum1DCollection, _ => exact h1d (Or.inr hcl)
  | .spectrum2D, _ =>
    obtain ⟨z', h1, h2, h3, h4⟩ := imul_2d_ok s ⟨hx, hy, hz⟩ hcl k
    refine ⟨{ s with z := z' }, h1, ⟨hx, hy, h3⟩, ⟨rfl, rfl, rfl, fun _ => rfl, rfl, h2, rfl, rfl⟩, ?_⟩
    simp [AnySpec.intensities, hcl, h4]
  | .spectrum2DCollection, hc => exact absurd rfl hc

/-- A copy shows the same as the original. -/
theorem copy_spec (s : AnySpec M α) (h : s.WF) :
    ∃ t, s.copy = .ok t ∧ t.WF ∧ SameButIntensities t s ∧ t.intensities = s.intensities := by
  obtain ⟨hx, hy, hz⟩ := h
  have gx := QAttr.get_ok s.x hx
  have gy := QAttr.get_ok s.y hy
  have gz := QAttr.get_ok s.z hz
  have wf : ∀ (v : List α) (a : QAttr α), a.WF → (QAttr.new v a.unit).WF := by
    intro v a ⟨_, h2, _, h4, _⟩
    exact ⟨rfl, h2, h2, h4, h4⟩
  have nx := QAttr.get_new (s.x.data.map fun v => s.x.unit.fromBase (s.x.internal.toBase v))
    s.x.unit hx.2.1
  have ny := QAttr.get_new (s.y.data.map fun v => s.y.unit.fromBase (s.y.internal.toBase v))
    s.y.unit hy.2.1
  have nz := QAttr.get_new (s.z.data.map fun v => s.z.unit.fromBase (s.z.internal.toBase v))
    s.z.unit hz.2.1
  unfold AnySpec.copy
  rw [gx, gy, gz]
  have h1d : s.cls = .spectrum1D ∨ s.cls = .spectrum1DCollection ∨
    s.cls = .spectrum2D ∨ s.cls = .spectrum2DCollection := by
    cases s.cls <;> simp
  rcases h1d with e | e | e | e
  · simp only [e, bind, Except.bind, pure, Except.pure]
    exact ⟨_, rfl, ⟨wf _ _ hx, wf _ _ hy, hz⟩,
      ⟨e.symm, by rw [nx, gx], rfl, fun _ => by rw [ny, gy], rfl, rfl, rfl, rfl⟩,
      by simp only [AnySpec.intensities, e]; rw [ny, gy]⟩
  · simp only [e, bind, Except.bind, pure, Except.pure]
    exact ⟨_, rfl, ⟨wf _ _ hx, wf _ _ hy, hz⟩,
      ⟨e.symm, by rw [nx, gx], rfl, fun _ => by rw [ny, gy], rfl, rfl, rfl, rfl⟩,
      by simp only [AnySpec.intensities, e]; rw [ny, gy]⟩
  · simp only [e, bind, Except.bind, pure, Except.pure]
    exact ⟨_, rfl, ⟨wf _ _ hx, wf _ _ hy, wf _ _ hz⟩,
      ⟨e.symm, by rw [nx, gx], rfl, fun _ => by rw [ny, gy], rfl, rfl, rfl, rfl⟩,
      by simp only [AnySpec.intensities, e]; rw [nz, gz]⟩
  · simp only [e, bind, Except.bind, pure, Except.pure]
    exact ⟨_, rfl, ⟨wf _ _ hx, wf _ _ hy, wf _ _ hz⟩,
      ⟨e.symm, by rw [nx, gx], rfl, fun _ => by rw [ny, gy], rfl, rfl, rfl, rfl⟩,
      by simp only [AnySpec.intensities, e]; rw [nz, gz]⟩

theorem SameButIntensities.trans {a b c : AnySpec M α} (h1 : SameButIntensities a b)
    (h2 : SameButIntensities b c) : SameButIntensities a c :=
  ⟨h1.cls.trans h2.cls, h1.xget.trans h2.xget, h1.xunit.trans h2.xunit,
    fun h => (h1.yget h).trans (h2.yget (h1.cls ▸ h)), h1.yunit.trans h2.yunit,
    h1.zunit.trans h2.zunit, h1.ticks.trans h2.ticks, h1.md.trans h2.md⟩

theorem mul_spec (s : AnySpec M α) (h : s.WF) (hc : s.cls ≠ .spectrum2DCollection) (k : α) :
    ∃ t, s.mul k = .ok t ∧ t.WF ∧ SameButIntensities t s ∧
      t.intensities = s.intensities.map (List.map (· * k)) := by
  obtain ⟨c, h1, h2, h3, h4⟩ := copy_spec s h
  obtain ⟨t, g1, g2, g3, g4⟩ := imul_spec c h2 (by rw [h3.cls]; exact hc) k
  refine ⟨t, ?_, g2, g3.trans h3, by rw [g4, h4]⟩
  simp [AnySpec.mul, h1, bind, Except.bind, g1]

/-- **C15**, partial: for `Spectrum1D`, `Spectrum1DCollection` and `Spectrum2D`, both `s * k` and
`s *= k` succeed, multiply all intensities by `k` and change nothing else; scaling twice is scaling by
the product; scaling by one changes nothing.  (That `s` itself is untouched by `s * k` is the subject
of C78.)  Missing: `Spectrum2DCollection`, for which the claim is false
(`C15_collection2d_scales_axis`). -/
theorem C15_scaling_partial (s : AnySpec M α) (h : s.WF) (hc : s.cls ≠ .spectrum2DCollection)
    (k l : α) :
    (∃ t, s.mul k = .ok t ∧ SameButIntensities t s ∧
      t.intensities = s.intensities.map (List.map (· * k))) ∧
    (∃ t, s.imul k = .ok t ∧ SameButIntensities t s ∧
      t.intensities = s.intensities.map (List.map (· * k))) ∧
    (∃ t u v, s.mul k = .ok t ∧ t.mul l = .ok u ∧ s.mul (k * l) = .ok v ∧
      SameButIntensities u v ∧ u.intensities = v.intensities) ∧
    (∃ t, s.mul 1 = .ok t ∧ t.intensities = s.intensities) := by
  obtain ⟨t, h1, h2, h3, h4⟩ := mul_spec s h hc k
  obtain ⟨t', h1', h2', h3', h4'⟩ := imul_spec s h hc k
  obtain ⟨u, g1, g2, g3, g4⟩ := mul_spec t h2 (by rw [h3.cls]; exact hc) l
  obtain ⟨v, k1, k2, k3, k4⟩ := mul_spec s h hc (k * l)
  obtain ⟨w, e1, e2, e3, e4⟩ := mul_spec s h hc 1
  have hsym : SameButIntensities s v :=
    ⟨k3.cls.symm, k3.xget.symm, k3.xunit.symm, fun h => (k3.yget (k3.cls ▸ h)).symm, k3.yunit.symm,
      k3.zunit.symm, k3.ticks.symm, k3.md.symm⟩
  refine ⟨⟨t, h1, h3, h4⟩, ⟨t', h1', h3', h4'⟩, ⟨t, u, v, h1, g1, k1, (g3.trans h3).trans hsym, ?_⟩,
    ⟨w, e1, ?_⟩⟩
  · rw [g4, h4, k4]
    cases s.intensities with
    | error e => rfl
    | ok d =>
      simp only [Except.map, List.map_map, Except.ok.injEq]
      apply List.map_congr_left
      intro x _
      simp [mul_assoc]
  · rw [e4]
    cases s.intensities with
    | error e => rfl
    | ok d => simp [Except.map]

/-- **C15**, negation for `Spectrum2DCollection`: multiplying a two-dimensional collection never
changes the intensities; instead the *y axis* is multiplied. -/
theorem C15_collection2d_scales_axis (s : AnySpec M α) (h : s.WF)
    (hc : s.cls = .spectrum2DCollection) (k : α) :
    ∃ t, s.mul k = .ok t ∧ t.intensities = s.intensities ∧
      t.y.get = s.y.get.map (List.map (· * k)) := by
  obtain ⟨c, h1, h2, h3, h4⟩ := copy_spec s h
  have hcc : c.cls = .spectrum2DCollection := by rw [h3.cls]; exact hc
  refine ⟨{ c with y := { c.y with data := c.y.data.map (· * k) } }, ?_, ?_, ?_⟩
  · simp [AnySpec.mul, h1, bind, Except.bind, AnySpec.imul, hcc]
  · rw [← h4]; simp [AnySpec.intensities, hcc]
  · rw [QAttr.get_scaled c.y h2.2.1 k, h3.yget (Or.inr hcc)]

/-- Non-vacuity of C15, with a display unit different from the internal unit. -/
example : (⟨.spectrum2D, .new [0, 1] ⟨.length, 1, 0⟩, ⟨⟨.energy, 1, 0⟩, [1, 2], ⟨.energy, 2, 0⟩⟩,
    .new [1, 2, 3, 4] ⟨.other 0, 1, 0⟩, none, ()⟩ : AnySpec Unit ℚ).WF := by
  simp [AnySpec.WF, QAttr.WF, QAttr.new]

end Euphonic
