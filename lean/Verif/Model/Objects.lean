import Verif.Model.Dict

/-!
# Model of the data classes: constructors, `to_dict`, `from_dict`

Models the constructors and the methods `to_dict`/`from_dict` of `Crystal`
(euphonic/crystal.py:38-79, 279-327), `DebyeWaller` (euphonic/debye_waller.py:30-132),
`QpointFrequencies` (euphonic/qpoint_frequencies.py:40-92, 331-374), `QpointPhononModes`
(euphonic/qpoint_phonon_modes.py:46-79, 606-645), `StructureFactor`
(euphonic/structure_factor.py:43-120, 341-387), `ForceConstants`
(euphonic/force_constants.py:64-164, 1663-1722) and of the spectrum classes
(euphonic/spectra.py:44-108, 421-456, 490-548, 1077-1105, 1148-1193, 1452-1504, 1787-1900).
Attributes that are arrays or quantities are `PyVal`s, so that type and shape errors are represented.
The argument `crystal` is given as an object of the class `Crystal` (its `isinstance` check always
succeeds and is left out).
-/

set_option autoImplicit false

namespace Euphonic.Py

variable {U α : Type} [Field α] [DecidableEq α]

/-- The internal units (euphonic/crystal.py:72, 76; euphonic/qpoint_frequencies.py:71;
euphonic/debye_waller.py:54-55; euphonic/force_constants.py:100, 108-111). -/
structure Internals (U : Type) where
  bohr : U
  electronMass : U
  hartree : U
  bohr2 : U
  kelvin : U
  fc : U
  charge : U
  diel : U

/-- A function applied to a numeric array element; the result is a float. -/
def Elem.mapNum (f : α → Option α) : Elem α → Option (Elem α)
  | .flt x => (f x).map .flt
  | .int z => (f z).map .flt
  | .str _ => none

/-- Elementwise function on the numbers of a magnitude (array or scalar), with float result. -/
def PyVal.mapNum (f : α → Option α) : PyVal U α → Option (PyVal U α)
  | .flt x => (f x).map .flt
  | .int z => (f z).map .flt
  | .arr a => (a.data.mapM (Elem.mapNum f)).map fun d => .arr ⟨a.shape, d⟩
  | _ => Option.none

/-- A quantity attribute: magnitude in internal units and display unit. -/
structure Stored (U α : Type) where
  mag : PyVal U α
  unit : U

/-- `self._attr = attr.to(internal).magnitude; self.attr_unit = str(attr.units)` (e.g.
euphonic/crystal.py:72, 78). -/
def storeQ (R : Registry U α) (internal : U) : PyVal U α → Except Err (Stored U α)
  | .qty v u => match v.mapNum (conv (R.unit u) (R.unit internal)) with
    | some m => .ok ⟨m, u⟩
    | none => .error .dimensionalityError
  | _ => .error .attributeError

/-- `self._attr*ureg(internal).to(self.attr_unit)` (e.g. euphonic/crystal.py:81-84). -/
def readQ (R : Registry U α) (internal : U) (s : Stored U α) : Except Err (PyVal U α) :=
  match conv (R.unit internal) (R.unit s.unit) 1 with
  | none => .error .dimensionalityError
  | some f => match s.mag.mapNum fun x => some (x * f) with
    | some v => .ok (.qty v s.unit)
    | none => .error .typeError

/-- `Quantity(self._temperature, ureg('K')).to(self.temperature_unit)` (euphonic/debye_waller.py:70-73,
euphonic/structure_factor.py:104-111). -/
def readT (R : Registry U α) (internal : U) (s : Stored U α) : Except Err (PyVal U α) :=
  match s.mag.mapNum (conv (R.unit internal) (R.unit s.unit)) with
  | some v => .ok (.qty v s.unit)
  | none => .error .dimensionalityError

/-- Name of the Python type. -/
def PyVal.pyType : PyVal U α → String
  | .none => "NoneType"
  | .int _ => "int"
  | .flt _ => "float"
  | .str _ => "str"
  | .tuple _ => "tuple"
  | .list _ => "list"
  | .arr _ => "ndarray"
  | .carr _ => "ndarray"
  | .qty _ _ => "Quantity"
  | .dict _ => "dict"

/-- Attribute `shape`. -/
def PyVal.shape? : PyVal U α → Option (List Nat)
  | .arr a => some a.shape
  | .carr a => some a.shape
  | .qty (.arr a) _ => some a.shape
  | _ => Option.none

/-- The value as seen by `_check_constructor_inputs`. -/
def PyVal.toObj (v : PyVal U α) : PyObj String :=
  ⟨fun t => t == v.pyType, v.shape?.map (List.map Int.ofNat)⟩

/-- `len(v)`. -/
def PyVal.len (v : PyVal U α) : Except Err Nat :=
  match v with
  | .list l => .ok l.length
  | .tuple l => .ok l.length
  | _ => match v.shape? with
    | some (n :: _) => .ok n
    | _ => .error .typeError

/-! ## Crystal -/

/-- Attributes of a `Crystal`. -/
structure CrystalO (U α : Type) where
  cellVectors : Stored U α
  nAtoms : Nat
  atomR : PyVal U α
  atomType : PyVal U α
  atomMass : Stored U α

/-- Replacement of empty arrays that lost their shape (euphonic/crystal.py:62-65). -/
def fixEmpty (nAtoms : Nat) (v : PyVal U α) (s : List Nat) : PyVal U α :=
  if nAtoms = 0 && v.shape? == some [0] then .arr ⟨s, []⟩ else v

/-- `Crystal.__init__` (euphonic/crystal.py:38-79). -/
def CrystalO.new (R : Registry U α) (I : Internals U) (cv r t m : PyVal U α) :
    Except Err (CrystalO U α) := do
  let n ← r.len
  let r := fixEmpty n r [0, 3]
  let t := fixEmpty n t [0]
  checkInputs [cv.toObj, r.toObj, t.toObj, m.toObj]
    [.one "Quantity", .one "ndarray", .one "ndarray", .one "Quantity"]
    [.one [3, 3], .one [n, 3], .one [(n : Int)], .one [(n : Int)]]
  let cv ← storeQ R I.bohr cv
  let m ← storeQ R I.electronMass m
  return ⟨cv, n, r, t, m⟩

/-- `Crystal.to_dict` (euphonic/crystal.py:279-290). -/
def CrystalO.toDict (R : Registry U α) (I : Internals U) (c : CrystalO U α) :
    Except Err (Dict U α) := do
  let cv ← readQ R I.bohr c.cellVectors
  let m ← readQ R I.electronMass c.atomMass
  return objToDict R [("cell_vectors", cv), ("n_atoms", .int c.nAtoms), ("atom_r", c.atomR),
    ("atom_type", c.atomType), ("atom_mass", m)]

/-- `Crystal.from_dict` (euphonic/crystal.py:304-327). -/
def CrystalO.fromDict (R : Registry U α) (I : Internals U) (d : Dict U α) :
    Except Err (CrystalO U α) := do
  let d ← processDict R d ["cell_vectors", "atom_mass"] []
  let cv ← dictGet d "cell_vectors"
  let r ← dictGet d "atom_r"
  let t ← dictGet d "atom_type"
  let m ← dictGet d "atom_mass"
  CrystalO.new R I cv r t m

/-- `Crystal.from_dict(d['crystal'])` (e.g. euphonic/qpoint_frequencies.py:371). -/
def crystalOf (R : Registry U α) (I : Internals U) (d : Dict U α) : Except Err (CrystalO U α) := do
  match ← dictGet d "crystal" with
  | .dict c => CrystalO.fromDict R I c
  | _ => throw .typeError

/-! ## DebyeWaller -/

/-- Attributes of a `DebyeWaller`. -/
structure DebyeWallerO (U α : Type) where
  crystal : CrystalO U α
  dw : Stored U α
  temperature : Stored U α

/-- `DebyeWaller.__init__` (euphonic/debye_waller.py:30-58). -/
def DebyeWallerO.new (R : Registry U α) (I : Internals U) (c : CrystalO U α) (w t : PyVal U α) :
    Except Err (DebyeWallerO U α) := do
  checkInputs [w.toObj, t.toObj] [.one "Quantity", .one "Quantity"]
    [.one [c.nAtoms, 3, 3], .one []]
  let w ← storeQ R I.bohr2 w
  let t ← storeQ R I.kelvin t
  return ⟨c, w, t⟩

/-- `DebyeWaller.to_dict` (euphonic/debye_waller.py:85-95). -/
def DebyeWallerO.toDict (R : Registry U α) (I : Internals U) (o : DebyeWallerO U α) :
    Except Err (Dict U α) := do
  let c ← o.crystal.toDict R I
  let w ← readQ R I.bohr2 o.dw
  let t ← readT R I.kelvin o.temperature
  return objToDict R [("crystal", .dict c), ("debye_waller", w), ("temperature", t)]

/-- `DebyeWaller.from_dict` (euphonic/debye_waller.py:109-132). -/
def DebyeWallerO.fromDict (R : Registry U α) (I : Internals U) (d : Dict U α) :
    Except Err (DebyeWallerO U α) := do
  let c ← crystalOf R I d
  let d ← processDict R d ["debye_waller", "temperature"] ["temperature"]
  let w ← dictGet d "debye_waller"
  let t ← dictGet d "temperature"
  DebyeWallerO.new R I c w t

/-! ## QpointFrequencies, QpointPhononModes, StructureFactor -/

/-- Attributes of a `QpointFrequencies`. -/
structure QpointFreqsO (U α : Type) where
  crystal : CrystalO U α
  qpts : PyVal U α
  nQpts : Nat
  freqs : Stored U α
  weights : PyVal U α

/-- `weights` or, if `None`, `np.full(n_qpts, 1/n_qpts)` (euphonic/qpoint_frequencies.py:75-78). -/
def weightsOr (n : Nat) : PyVal U α → Except Err (PyVal U α)
  | .none => if n = 0 then .error .zeroDivisionError
      else .ok (.arr ⟨[n], List.replicate n (.flt (1 / (n : α)))⟩)
  | w => .ok w

/-- `QpointFrequencies.__init__` (euphonic/qpoint_frequencies.py:40-78). -/
def QpointFreqsO.new (R : Registry U α) (I : Internals U) (c : CrystalO U α) (q f w : PyVal U α) :
    Except Err (QpointFreqsO U α) := do
  checkInputs [q.toObj] [.one "ndarray"] [.one [-1, 3]]
  let n ← q.len
  checkInputs [f.toObj, w.toObj] [.one "Quantity", .many ["ndarray", "NoneType"]]
    [.one [(n : Int), -1], .one [(n : Int)]]
  let f ← storeQ R I.hartree f
  let w ← weightsOr n w
  return ⟨c, q, n, f, w⟩

/-- `QpointFrequencies.to_dict` (euphonic/qpoint_frequencies.py:331-338). -/
def QpointFreqsO.toDict (R : Registry U α) (I : Internals U) (o : QpointFreqsO U α) :
    Except Err (Dict U α) := do
  let c ← o.crystal.toDict R I
  let f ← readQ R I.hartree o.freqs
  return objToDict R [("crystal", .dict c), ("n_qpts", .int o.nQpts), ("qpts", o.qpts),
    ("frequencies", f), ("weights", o.weights)]

/-- `QpointFrequencies.from_dict` (euphonic/qpoint_frequencies.py:352-374). -/
def QpointFreqsO.fromDict (R : Registry U α) (I : Internals U) (d : Dict U α) :
    Except Err (QpointFreqsO U α) := do
  let c ← crystalOf R I d
  let d ← processDict R d ["frequencies"] ["weights"]
  let q ← dictGet d "qpts"
  let f ← dictGet d "frequencies"
  let w ← dictGet d "weights"
  QpointFreqsO.new R I c q f w

/-- Attributes of a `QpointPhononModes`. -/
structure ModesO (U α : Type) where
  base : QpointFreqsO U α
  evecs : PyVal U α

/-- `QpointPhononModes.__init__` (euphonic/qpoint_phonon_modes.py:46-79). -/
def ModesO.new (R : Registry U α) (I : Internals U) (c : CrystalO U α) (q f e w : PyVal U α) :
    Except Err (ModesO U α) := do
  let b ← QpointFreqsO.new R I c q f w
  let n := b.nQpts
  let k := c.nAtoms
  checkInputs [f.toObj, e.toObj] [.one "Quantity", .one "ndarray"]
    [.one [(n : Int), ((3 * k : Nat) : Int)], .one [(n : Int), ((3 * k : Nat) : Int), (k : Int), 3]]
  return ⟨b, e⟩

/-- `QpointPhononModes.to_dict` (euphonic/qpoint_phonon_modes.py:606-613). -/
def ModesO.toDict (R : Registry U α) (I : Internals U) (o : ModesO U α) :
    Except Err (Dict U α) := do
  let c ← o.base.crystal.toDict R I
  let f ← readQ R I.hartree o.base.freqs
  return objToDict R [("crystal", .dict c), ("n_qpts", .int o.base.nQpts), ("qpts", o.base.qpts),
    ("frequencies", f), ("eigenvectors", o.evecs), ("weights", o.base.weights)]

/-- `QpointPhononModes.from_dict` (euphonic/qpoint_phonon_modes.py:622-645). -/
def ModesO.fromDict (R : Registry U α) (I : Internals U) (d : Dict U α) :
    Except Err (ModesO U α) := do
  let c ← crystalOf R I d
  let d ← processDict R d ["frequencies"] ["weights"]
  let q ← dictGet d "qpts"
  let f ← dictGet d "frequencies"
  let e ← dictGet d "eigenvectors"
  let w ← dictGet d "weights"
  ModesO.new R I c q f e w

/-- Attributes of a `StructureFactor`; `temperature = none` is `_temperature = None`. -/
structure StructFacO (U α : Type) where
  base : QpointFreqsO U α
  sf : Stored U α
  temperature : Option (Stored U α)

/-- `_temperature` from the argument, which may be `None` (euphonic/structure_factor.py:87-92). -/
def storeOpt (R : Registry U α) (internal : U) : PyVal U α → Except Err (Option (Stored U α))
  | .none => .ok none
  | t => (storeQ R internal t).map some

/-- `StructureFactor.__init__` (euphonic/structure_factor.py:43-92). -/
def StructFacO.new (R : Registry U α) (I : Internals U) (c : CrystalO U α) (q f s w t : PyVal U α) :
    Except Err (StructFacO U α) := do
  let b ← QpointFreqsO.new R I c q f w
  let n := b.nQpts
  let k := c.nAtoms
  checkInputs [f.toObj, s.toObj, t.toObj]
    [.one "Quantity", .one "Quantity", .many ["Quantity", "NoneType"]]
    [.one [(n : Int), ((3 * k : Nat) : Int)], .one [(n : Int), ((3 * k : Nat) : Int)], .one []]
  let s ← storeQ R I.bohr2 s
  let t ← storeOpt R I.kelvin t
  return ⟨b, s, t⟩

/-- Property `temperature` (euphonic/structure_factor.py:104-111). -/
def StructFacO.readTemp (R : Registry U α) (I : Internals U) (o : StructFacO U α) :
    Except Err (PyVal U α) :=
  match o.temperature with
  | none => .ok .none
  | some t => readT R I.kelvin t

/-- `StructureFactor.to_dict` (euphonic/structure_factor.py:341-349). -/
def StructFacO.toDict (R : Registry U α) (I : Internals U) (o : StructFacO U α) :
    Except Err (Dict U α) := do
  let c ← o.base.crystal.toDict R I
  let f ← readQ R I.hartree o.base.freqs
  let s ← readQ R I.bohr2 o.sf
  let t ← o.readTemp R I
  return objToDict R [("crystal", .dict c), ("n_qpts", .int o.base.nQpts), ("qpts", o.base.qpts),
    ("frequencies", f), ("structure_factors", s), ("weights", o.base.weights), ("temperature", t)]

/-- `StructureFactor.from_dict` (euphonic/structure_factor.py:358-387). -/
def StructFacO.fromDict (R : Registry U α) (I : Internals U) (d : Dict U α) :
    Except Err (StructFacO U α) := do
  let c ← crystalOf R I d
  let d ← processDict R d ["frequencies", "structure_factors", "temperature"]
    ["weights", "temperature"]
  let q ← dictGet d "qpts"
  let f ← dictGet d "frequencies"
  let s ← dictGet d "structure_factors"
  let w ← dictGet d "weights"
  let t ← dictGet d "temperature"
  StructFacO.new R I c q f s w t

/-! ## ForceConstants -/

/-- The attribute `_dielectric`: absent, an array, or - if a dielectric tensor was given without Born
charges - the quantity itself (euphonic/force_constants.py:117-120). -/
inductive DielState (U α : Type) where
  | absent
  | stored (s : Stored U α)
  | raw (v : PyVal U α)

/-- Attributes of a `ForceConstants`. -/
structure FcO (U α : Type) where
  crystal : CrystalO U α
  fc : Stored U α
  nCells : Nat
  scMatrix : PyVal U α
  cellOrigins : PyVal U α
  born : Option (Stored U α)
  diel : DielState U α

/-- `ForceConstants.__init__` (euphonic/force_constants.py:64-122).  `nSc` stands for
`int(np.rint(np.absolute(np.linalg.det(sc_matrix))))` (line 93). -/
def FcO.new (R : Registry U α) (I : Internals U) (nSc : PyVal U α → Nat) (c : CrystalO U α)
    (fc sc o born diel : PyVal U α) : Except Err (FcO U α) := do
  checkInputs [sc.toObj] [.one "ndarray"] [.one [3, 3]]
  let k := c.nAtoms
  let n := nSc sc
  checkInputs [fc.toObj, o.toObj, born.toObj, diel.toObj]
    [.one "Quantity", .one "ndarray", .many ["Quantity", "NoneType"], .many ["Quantity", "NoneType"]]
    [.one [(n : Int), ((3 * k : Nat) : Int), ((3 * k : Nat) : Int)], .one [(n : Int), 3],
      .one [(k : Int), 3, 3], .one [3, 3]]
  let fc ← storeQ R I.fc fc
  match born with
  | .none => return ⟨c, fc, n, sc, o, none, match diel with
      | .none => .absent
      | d => .raw d⟩
  | b =>
    let b ← storeQ R I.charge b
    let d ← storeQ R I.diel diel
    return ⟨c, fc, n, sc, o, some b, .stored d⟩

/-- Property `born` (euphonic/force_constants.py:135-140). -/
def FcO.readBorn (R : Registry U α) (I : Internals U) (f : FcO U α) : Except Err (PyVal U α) :=
  match f.born with
  | none => .ok .none
  | some b => readQ R I.charge b

/-- Property `dielectric` (euphonic/force_constants.py:147-153).  If `_dielectric` is a quantity, its
unit is multiplied by the internal unit (`mul`). -/
def FcO.readDiel (R : Registry U α) (I : Internals U) (mul : U → U → U) (f : FcO U α) :
    Except Err (PyVal U α) :=
  match f.diel with
  | .absent => .ok .none
  | .stored d => readQ R I.diel d
  | .raw (.qty v u) => .ok (.qty v (mul u I.diel))
  | .raw _ => .error .typeError

/-- `ForceConstants.to_dict` (euphonic/force_constants.py:1663-1676). -/
def FcO.toDict (R : Registry U α) (I : Internals U) (mul : U → U → U) (f : FcO U α) :
    Except Err (Dict U α) := do
  let c ← f.crystal.toDict R I
  let fc ← readQ R I.fc f.fc
  let b ← f.readBorn R I
  let d ← f.readDiel R I mul
  return objToDict R [("crystal", .dict c), ("force_constants", fc), ("n_cells_in_sc", .int f.nCells),
    ("sc_matrix", f.scMatrix), ("cell_origins", f.cellOrigins), ("born", b), ("dielectric", d)]

/-- `ForceConstants.from_dict` (euphonic/force_constants.py:1690-1722). -/
def FcO.fromDict (R : Registry U α) (I : Internals U) (nSc : PyVal U α → Nat) (d : Dict U α) :
    Except Err (FcO U α) := do
  let c ← crystalOf R I d
  let d ← processDict R d ["force_constants", "born", "dielectric"] ["born", "dielectric"]
  let fc ← dictGet d "force_constants"
  let sc ← dictGet d "sc_matrix"
  let o ← dictGet d "cell_origins"
  let b ← dictGet d "born"
  let e ← dictGet d "dielectric"
  FcO.new R I nSc c fc sc o b e

/-! ## Spectra -/

/-- A data attribute of a spectrum: magnitudes, the unit they are stored in, display unit
(`_set_data`, euphonic/spectra.py:44-48). -/
structure SpecQ (U α : Type) where
  mag : PyVal U α
  internal : U
  unit : U

/-- `Spectrum._set_data` (euphonic/spectra.py:44-48): the magnitudes are copied as floats. -/
def SpecQ.new : PyVal U α → Except Err (SpecQ U α)
  | .qty v u => match v.mapNum some with
    | some m => .ok ⟨m, u, u⟩
    | none => .error .typeError
  | _ => .error .attributeError

/-- `x_data` etc. (euphonic/spectra.py:50-53, 60-63, 1495-1499). -/
def SpecQ.read (R : Registry U α) (s : SpecQ U α) : Except Err (PyVal U α) :=
  match s.mag.mapNum (convRs (R.unit s.internal) (R.unit s.unit)) with
  | some v => .ok (.qty v s.unit)
  | none => .error .dimensionalityError

/-- A spectrum of any of the four classes (`z` absent in the one-dimensional classes). -/
structure SpecO (U α : Type) where
  cls : SpecClass
  x : SpecQ U α
  y : SpecQ U α
  z : Option (SpecQ U α)
  ticks : PyVal U α
  md : Dict U α

/-- Setter of `x_tick_labels` (euphonic/spectra.py:90-108). -/
def setTicks : PyVal U α → Except Err (PyVal U α)
  | .none => .ok .none
  | .list l => if l.all (fun e => match e with
      | .tuple [.int _, .str _] => true
      | _ => false) then .ok (.list l) else .error .typeError
  | _ => .error .typeError

/-- `self.metadata = {} if metadata is None else metadata` (e.g. euphonic/spectra.py:456). -/
def mdOf : PyVal U α → Dict U α
  | .dict d => d
  | _ => []

/-- `SpectrumCollectionMixin._check_metadata` (euphonic/spectra.py:1017-1034). -/
def checkMd (cls : SpecClass) (shape : Option (List Nat)) (md : Dict U α) : Except Err Unit :=
  match cls, shape, md.lookup "line_data" with
  | .spectrum1DCollection, some (size :: _), some v => do
    let n ← v.len
    if n = size then .ok () else .error .valueError
  | .spectrum2DCollection, some (size :: _), some v => do
    let n ← v.len
    if n = size then .ok () else .error .valueError
  | _, _, _ => .ok ()

/-- Shape checks of the axes (euphonic/spectra.py:449-452, 1184-1187, 1482-1488, 1886-1893);
`len(y_data[0])` raises `IndexError` for an empty collection, a scalar quantity has no length. -/
def checkAxes (cls : SpecClass) (shape : Option (List Nat)) (x y : PyVal U α) : Except Err Unit :=
  match cls, shape with
  | .spectrum1D, some [n] =>
    checkInputs [x.toObj] [.one "Quantity"] [.many [[(n : Int)], [(n + 1 : Int)]]]
  | .spectrum1DCollection, some [m, n] =>
    if m = 0 then .error .indexError
    else checkInputs [x.toObj] [.one "Quantity"] [.many [[(n : Int)], [(n + 1 : Int)]]]
  | .spectrum2D, some [nx, ny] =>
    checkInputs [x.toObj, y.toObj] [.one "Quantity", .one "Quantity"]
      [.many [[(nx : Int)], [(nx + 1 : Int)]], .many [[(ny : Int)], [(ny + 1 : Int)]]]
  | .spectrum2DCollection, some [_, nx, ny] =>
    checkInputs [x.toObj, y.toObj] [.one "Quantity", .one "Quantity"]
      [.many [[(nx : Int)], [(nx + 1 : Int)]], .many [[(ny : Int)], [(ny + 1 : Int)]]]
  | _, _ => .error .typeError

/-- `_set_data(z_data, 'z')` in the two-dimensional classes (euphonic/spectra.py:1492, 1898). -/
def newZ (cls : SpecClass) (z : PyVal U α) : Except Err (Option (SpecQ U α)) :=
  match cls with
  | .spectrum1D | .spectrum1DCollection => .ok none
  | _ => (SpecQ.new z).map some

/-- The argument holding the intensities. -/
def mainData (cls : SpecClass) (y z : PyVal U α) : PyVal U α :=
  match cls with
  | .spectrum1D => y
  | .spectrum1DCollection => y
  | .spectrum2D => z
  | .spectrum2DCollection => z

/-- Its expected shape (euphonic/spectra.py:446, 1181, 1479, 1885). -/
def mainShape (cls : SpecClass) : List Int :=
  match cls with
  | .spectrum1D => [-1]
  | .spectrum1DCollection => [-1, -1]
  | .spectrum2D => [-1, -1]
  | .spectrum2DCollection => [-1, -1, -1]

/-- The constructors of the four classes (euphonic/spectra.py:421-456, 1148-1193, 1452-1493,
1876-1900); `z` is ignored in the one-dimensional classes. -/
def SpecO.new (cls : SpecClass) (x y z ticks md : PyVal U α) : Except Err (SpecO U α) := do
  let main := mainData cls y z
  checkInputs [main.toObj, ticks.toObj, md.toObj]
    [.one "Quantity", .many ["list", "NoneType"], .many ["dict", "NoneType"]]
    [.one (mainShape cls), .one [], .one []]
  checkAxes cls main.shape? x y
  let xs ← SpecQ.new x
  let ys ← SpecQ.new y
  let ticks ← setTicks ticks
  let zs ← newZ cls z
  let md := mdOf md
  checkMd cls main.shape? md
  return ⟨cls, xs, ys, zs, ticks, md⟩

/-- `to_dict` (euphonic/spectra.py:490-500, 1077-1090, 1787-1797). -/
def SpecO.toDict (R : Registry U α) (s : SpecO U α) : Except Err (Dict U α) := do
  let x ← s.x.read R
  let y ← s.y.read R
  match s.z with
  | none => return objToDict R [("x_data", x), ("y_data", y), ("x_tick_labels", s.ticks),
      ("metadata", .dict s.md)]
  | some z =>
    let z ← z.read R
    return objToDict R [("x_data", x), ("y_data", y), ("z_data", z), ("x_tick_labels", s.ticks),
      ("metadata", .dict s.md)]

/-- `from_dict` (euphonic/spectra.py:524-548, 1092-1105, 1799-1829). -/
def SpecO.fromDict (R : Registry U α) (cls : SpecClass) (d : Dict U α) : Except Err (SpecO U α) := do
  match cls with
  | .spectrum1D | .spectrum1DCollection =>
    let d ← processDict R d ["x_data", "y_data"] ["x_tick_labels", "metadata"]
    let x ← dictGet d "x_data"
    let y ← dictGet d "y_data"
    let t ← dictGet d "x_tick_labels"
    let m ← dictGet d "metadata"
    SpecO.new cls x y .none t m
  | _ =>
    let d ← processDict R d ["x_data", "y_data", "z_data"] ["x_tick_labels", "metadata"]
    let x ← dictGet d "x_data"
    let y ← dictGet d "y_data"
    let z ← dictGet d "z_data"
    let t ← dictGet d "x_tick_labels"
    let m ← dictGet d "metadata"
    SpecO.new cls x y z t m

end Euphonic.Py
