import Verif.Props.Objects

/-! # Properties C17/C18 combined: writing an object to a JSON file and reading the file -/

set_option autoImplicit false
set_option linter.unusedSectionVars false

namespace Euphonic.Py

variable {U α : Type} [Field α] [DecidableEq α]

/-- `type_dict` of `QpointPhononModes.from_json_file` (euphonic/qpoint_phonon_modes.py:658-659); in the
other classes without complex arrays an empty `type_dict` acts in the same way. -/
def tdModes : String → Option JType := fun k => if k = "eigenvectors" then some .complex else none

/-- `type_dict` of `Spectrum.from_json_file` (euphonic/spectra.py:143). -/
def tdSpec : String → Option JType := fun k => if k = "x_tick_labels" then some .tuple else none

theorem floatArr_storable (shape : List Nat) (d : List α) (h : d.length = shape.prod) :
    (⟨shape, d.map .flt⟩ : NdArr (Elem α)).WF := by simp [NdArr.WF, h]

theorem crystal_storable (R : Registry U α) (I : Internals U) (td : String → Option JType)
    (c : CrystalO U α) (h : c.WF R I) (hn : 0 < c.nAtoms)
    (htd : ∀ k ∈ ["cell_vectors", "atom_r", "atom_type", "atom_mass"], td k = none) :
    ∃ d, c.toDict R I = .ok d ∧ StorableDict td d := by
  obtain ⟨d1, r1, l1, s1⟩ := read_store R I.bohr _ _ h.cv
  obtain ⟨d2, r2, l2, s2⟩ := read_store R I.electronMass _ _ h.m
  obtain ⟨dr, hr, hrl⟩ := h.r
  obtain ⟨dt, ht, htl⟩ := h.t
  refine ⟨_, by dict_simp [CrystalO.toDict, r1, r2, hr, ht]; rfl, ?_⟩
  simp only [List.mem_cons, List.not_mem_nil, or_false] at htd
  simp only [StorableDict, StorableVal, NdArr.WF, NdArr.NonEmpty, htd _ (Or.inl rfl),
    htd _ (Or.inr (Or.inl rfl)), htd _ (Or.inr (Or.inr (Or.inl rfl))),
    htd _ (Or.inr (Or.inr (Or.inr rfl)))]
  simp [l1, l2, hrl, htl, hn]

/-- **C17/C18**: a crystal with at least one atom is unchanged by writing it to a JSON file and reading
the file. -/
theorem C18_crystal_file (R : Registry U α) (I : Internals U) (hR : R.Lawful) (c : CrystalO U α)
    (h : c.WF R I) (hn : 0 < c.nAtoms) :
    (c.toDict R I >>= fun d => jsonFileTrip (fun _ => none) d >>= CrystalO.fromDict R I) = .ok c := by
  obtain ⟨d, h1, h2⟩ := crystal_storable R I (fun _ => none) c h hn (by simp)
  have h3 := C17_crystal R I hR c h
  rw [h1] at h3 ⊢
  change (jsonFileTrip (fun _ => none) d >>= CrystalO.fromDict R I) = .ok c
  rw [C18_json_roundtrip_partial _ _ h2]
  exact h3

/-- **C17/C18**: a crystal *without* atoms (cell vectors only) is also unchanged, although the empty
arrays lose their shape in the file (euphonic/crystal.py:57-65 repairs it). -/
theorem C18_empty_crystal_file (R : Registry U α) (I : Internals U) (hR : R.Lawful)
    (c : CrystalO U α) (h : c.WF R I) (hn : c.nAtoms = 0) :
    (c.toDict R I >>= fun d => jsonFileTrip (fun _ => none) d >>= CrystalO.fromDict R I) = .ok c := by
  obtain ⟨d1, r1, l1, s1⟩ := read_store R I.bohr _ _ h.cv
  obtain ⟨d2, r2, l2, s2⟩ := read_store R I.electronMass _ _ h.m
  obtain ⟨dr, hr, hrl⟩ := h.r
  obtain ⟨dt, ht, htl⟩ := h.t
  have hu1 := qtyMul_ok R hR (.arr ⟨[3, 3], d1.map .flt⟩) _ h.cv.compat.2.2.2
  have hu2 := qtyMul_ok R hR (.arr ⟨[0], []⟩) _ h.m.compat.2.2.2
  have hnew := crystal_new R I c h d1 d2 s1 s2
  rw [hn] at hr ht l2 hrl r2 htl s2 hnew
  obtain rfl : d2 = [] := List.length_eq_zero_iff.1 (by simpa using l2)
  obtain rfl : dr = [] := List.length_eq_zero_iff.1 (by simpa using hrl)
  obtain rfl : dt = [] := List.length_eq_zero_iff.1 htl
  have hcv : unnest (nest [3, 3] (d1.map Elem.flt) : PyVal U α) = some ([3, 3], d1.map .flt) :=
    unnest_nest _ _ (by simp) (by simpa using l1)
  have hcvl : ∃ l, (nest [3, 3] (d1.map Elem.flt) : PyVal U α) = .list l := ⟨_, rfl⟩
  obtain ⟨l, hl⟩ := hcvl
  have hj := jsonTrip_nest (U := U) [3, 3] (d1.map Elem.flt)
  rw [hl] at hcv hj
  have hjl : jsonTripList l = .ok l := by
    simp only [jsonTrip] at hj
    cases hh : jsonTripList l <;> simp [hh] at hj ⊢
    exact hj
  have hnest : ∀ (s : List Nat), (nest (0 :: s) [] : PyVal U α) = .list [] := fun s => rfl
  have hun : unnest (.list [] : PyVal U α) = some ([0], []) := by simp [unnest, unnestList]
  have htrip : jsonFileTrip (fun _ => none)
      ([("cell_vectors", .arr ⟨[3, 3], d1.map .flt⟩),
        ("cell_vectors_unit", .str (R.render c.cellVectors.unit)), ("n_atoms", .int 0),
        ("atom_r", .arr ⟨[0, 3], []⟩), ("atom_type", .arr ⟨[0], []⟩), ("atom_mass", .arr ⟨[0], []⟩),
        ("atom_mass_unit", .str (R.render c.atomMass.unit))] : Dict U α) =
      .ok [("cell_vectors", .arr ⟨[3, 3], d1.map .flt⟩),
        ("cell_vectors_unit", .str (R.render c.cellVectors.unit)), ("n_atoms", .int 0),
        ("atom_r", .arr ⟨[0], []⟩), ("atom_type", .arr ⟨[0], []⟩), ("atom_mass", .arr ⟨[0], []⟩),
        ("atom_mass_unit", .str (R.render c.atomMass.unit))] := by
    simp only [jsonFileTrip, toJsonDict, toJsonVal, hl, hnest, jsonTripDict, hjl, jsonTrip,
      jsonTripList, fromJsonDict, fromJsonVal, hcv, hun]
  have hobj : CrystalO.new R I (.qty (.arr ⟨[3, 3], d1.map .flt⟩) c.cellVectors.unit)
      (.arr ⟨[0], []⟩) (.arr ⟨[0], []⟩) (.qty (.arr ⟨[0], []⟩) c.atomMass.unit) =
      CrystalO.new R I (.qty (.arr ⟨[3, 3], d1.map .flt⟩) c.cellVectors.unit)
      (.arr ⟨[0, 3], []⟩) (.arr ⟨[0], []⟩) (.qty (.arr ⟨[0], []⟩) c.atomMass.unit) := by
    simp only [CrystalO.new, PyVal.len, PyVal.shape?, fixEmpty, bind, Except.bind]
    rfl
  simp only [hr, ht, List.map_nil] at hnew r2
  rw [← hobj] at hnew
  dict_simp [CrystalO.toDict, r1, r2, hr, ht, List.map_nil, hn, Nat.cast_zero, Int.ofNat_zero, htrip,
    CrystalO.fromDict, hu1, hu2]
  exact hnew

/-- **C17/C18**: phonon modes at one or more q-points of a crystal with at least one atom are unchanged
by writing them to a JSON file and reading the file; in particular the complex eigenvectors. -/
theorem C18_modes_file (R : Registry U α) (I : Internals U) (hR : R.Lawful) (o : ModesO U α)
    (h : o.WF R I) (hn : 0 < o.base.crystal.nAtoms) (hq : 0 < o.base.nQpts)
    (hev : ∀ a, o.evecs = .carr a → a.WF) :
    (o.toDict R I >>= fun d => jsonFileTrip tdModes d >>= ModesO.fromDict R I) = .ok o := by
  have h3 := C17_qpoint_phonon_modes R I hR o h
  obtain ⟨dc, c1, c2⟩ := crystal_storable R I tdModes _ h.base.crystal hn (by simp [tdModes])
  obtain ⟨d1, r1, l1, s1⟩ := read_store R I.hartree _ _ h.base.freqs
  obtain ⟨dq, hqa, hql⟩ := h.base.qpts
  obtain ⟨dw, hw, hwl⟩ := h.base.weights
  obtain ⟨de, he⟩ := h.evecs
  have hew := hev _ he
  have : ∃ d, o.toDict R I = .ok d ∧ StorableDict tdModes d := by
    refine ⟨_, by dict_simp [ModesO.toDict, c1, r1, hqa, hw, he]; rfl, ?_⟩
    simp only [StorableDict, StorableVal, c2, NdArr.NonEmpty]
    simp only [NdArr.WF] at hew ⊢
    simp [hew, tdModes, l1, hql, hwl, hq, hn]
  obtain ⟨d, e1, e2⟩ := this
  rw [e1] at h3 ⊢
  change (jsonFileTrip tdModes d >>= ModesO.fromDict R I) = .ok o
  rw [C18_json_roundtrip_partial _ _ e2]
  exact h3

/-- **C17/C18**: one-dimensional spectra with at least one point, with or without tick labels and
(plain) metadata: reading the written file gives a spectrum showing the same. -/
theorem C18_spectrum1d_file (R : Registry U α) (hR : R.Lawful) (s : SpecO U α) (h : s.WF R)
    (hc : s.cls = .spectrum1D) (hne : ∀ sh d, s.y.mag = .arr ⟨sh, d⟩ → 0 < sh.prod)
    (hmd : PlainDict s.md) :
    ∃ t, (s.toDict R >>= fun d => jsonFileTrip tdSpec d >>= SpecO.fromDict R s.cls) = .ok t ∧
      t.Same R s := by
  obtain ⟨t, h3, h4⟩ := C17_spectra R hR s h
  refine ⟨t, ?_, h4⟩
  obtain ⟨n, nx, ny, ex, ey, hs⟩ := h.shapes
  have hticks := h.ticks
  obtain ⟨cls, x, y, z, ticks, md⟩ := s
  dsimp only at *
  subst hc
  match z, hs with
  | none, ⟨hx, hy, _⟩ =>
    obtain ⟨dy0, hy0, _⟩ := hy.arr
    have hpos : 0 < nx := by simpa using hne _ _ hy0
    obtain ⟨hdx, _⟩ := hx
    obtain ⟨hdy, _⟩ := hy
    rename_i cx cy
    obtain ⟨dx, rx, lx⟩ : ∃ d : List α, x.read R = .ok (.qty (.arr ⟨[nx + ex.toNat], d.map .flt⟩)
        x.unit) ∧ d.length = nx + ex.toNat := by
      obtain ⟨d, hd, hl⟩ := hdx
      refine ⟨d.map fun v => (R.unit x.unit).fromBase ((R.unit x.internal).toBase v), ?_, by
        simpa using hl⟩
      rw [SpecQ.read, hd, mapNum_flt _ (fun v => (R.unit x.unit).fromBase
        ((R.unit x.internal).toBase v)) _ d fun v _ => convRs_same _ _ cx.1.symm v]
    obtain ⟨dy, ry, ly⟩ : ∃ d : List α, y.read R = .ok (.qty (.arr ⟨[nx], d.map .flt⟩)
        y.unit) ∧ d.length = nx := by
      obtain ⟨d, hd, hl⟩ := hdy
      refine ⟨d.map fun v => (R.unit y.unit).fromBase ((R.unit y.internal).toBase v), ?_, by
        simpa using hl⟩
      rw [SpecQ.read, hd, mapNum_flt _ (fun v => (R.unit y.unit).fromBase
        ((R.unit y.internal).toBase v)) _ d fun v _ => convRs_same _ _ cy.1.symm v]
    have htk : ticks = .none ∨ ∃ l, ticks = .list l ∧
        ∀ v ∈ l, ∃ t : List (PyVal U α), v = .tuple t ∧ PlainList t := by
      cases ticks with
      | none => exact Or.inl rfl
      | list l =>
        refine Or.inr ⟨l, rfl, fun v hv => ?_⟩
        simp only [setTicks] at hticks
        split at hticks
        · rename_i hall
          rw [List.all_eq_true] at hall
          have := hall v hv
          split at this
          · exact ⟨_, rfl, by simp [PlainList, Plain]⟩
          · simp at this
        · simp at hticks
      | _ => simp [setTicks] at hticks
    have : ∃ d, SpecO.toDict R ⟨.spectrum1D, x, y, none, ticks, md⟩ = .ok d ∧
        StorableDict tdSpec d := by
      have hnil : md.isEmpty = decide (md = []) := by cases md <;> simp
      rcases htk with rfl | ⟨l, rfl, hl⟩ <;> by_cases he : md = []
      · refine ⟨_, by dict_simp [SpecO.toDict, rx, ry, hnil, he, decide_true]; rfl, ?_⟩
        simp [StorableDict, StorableVal, NdArr.WF, NdArr.NonEmpty, tdSpec, lx, ly, hpos]
      · refine ⟨_, by dict_simp [SpecO.toDict, rx, ry, hnil, he, decide_false]; rfl, ?_⟩
        simp [StorableDict, StorableVal, NdArr.WF, NdArr.NonEmpty, tdSpec, lx, ly, hpos, hmd]
      · refine ⟨_, by dict_simp [SpecO.toDict, rx, ry, hnil, he, decide_true]; rfl, ?_⟩
        simp only [StorableDict, StorableVal, tdSpec]
        simp [NdArr.WF, NdArr.NonEmpty, lx, ly, hpos]
        exact hl
      · refine ⟨_, by dict_simp [SpecO.toDict, rx, ry, hnil, he, decide_false]; rfl, ?_⟩
        simp only [StorableDict, StorableVal, tdSpec]
        simp [NdArr.WF, NdArr.NonEmpty, lx, ly, hpos, hmd]
        exact hl
    obtain ⟨d, e1, e2⟩ := this
    rw [e1] at h3 ⊢
    change (jsonFileTrip tdSpec d >>= SpecO.fromDict R .spectrum1D) = .ok t
    rw [C18_json_roundtrip_partial _ _ e2]
    exact h3

/-! ## Non-vacuity -/

/-- Modes of a one-atom crystal at one q-point, with complex eigenvectors. -/
example : ∃ o : ModesO (Fin 9) ℚ, o.WF exReg ⟨0, 3, 6, 6, 6, 6, 6, 6⟩ ∧ 0 < o.base.crystal.nAtoms ∧
    0 < o.base.nQpts ∧ ∀ a, o.evecs = .carr a → a.WF := by
  refine ⟨⟨⟨⟨⟨.arr ⟨[3, 3], [1, 0, 0, 0, 2, 0, 0, 0, 3].map .flt⟩, 1⟩, 1,
    .arr ⟨[1, 3], [0, 0, 0].map .flt⟩, .arr ⟨[1], ["Na"].map .str⟩,
    ⟨.arr ⟨[1], [23].map .flt⟩, 5⟩⟩, .arr ⟨[1, 3], [1/2, 0, 0].map .flt⟩, 1,
    ⟨.arr ⟨[1, 3], [1, 2, 3].map .flt⟩, 7⟩, .arr ⟨[1], [1].map .flt⟩⟩,
    .carr ⟨[1, 3, 1, 3], [(1, 0), (0, 0), (0, 0), (0, 0), (0, 1), (0, 0), (0, 0), (0, 0), (-1, 0)]⟩⟩,
    ⟨⟨⟨?_, ⟨_, rfl, rfl⟩, ⟨_, rfl, rfl⟩, ?_⟩, ⟨_, rfl, rfl⟩, ?_, ⟨_, rfl, rfl⟩⟩, ⟨_, rfl⟩⟩,
    by simp, by simp, ?_⟩
  · exact ⟨⟨_, rfl, rfl⟩, by norm_num [Registry.Compat, exReg, PUnit'.Linear]⟩
  · exact ⟨⟨_, rfl, rfl⟩, by norm_num [Registry.Compat, exReg, PUnit'.Linear]⟩
  · exact ⟨⟨_, rfl, rfl⟩, by norm_num [Registry.Compat, exReg, PUnit'.Linear]⟩
  · rintro a h
    injection h with h
    subst h
    simp [NdArr.WF]

end Euphonic.Py
