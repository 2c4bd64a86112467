import Verif.Model.RefData
import Verif.Lemmas.Split
import Mathlib.Tactic.FieldSimp
import Mathlib.Tactic.Ring
import Mathlib.Tactic.NormNum
import Mathlib.Algebra.Order.Field.Rat

/-!
# C99, C100: reference data

**C99** the table of a reference data file is returned with every number it contains;
**C100** a neutron-weighted partial density of states uses the cross-section of the species of each atom.
-/

set_option autoImplicit false
set_option linter.unusedSectionVars false

namespace Euphonic.RefData

variable {K : Type} [Field K]

/-! ## Specification: what a data file says -/

/-- A real number as written in the file: with a decimal point or exponent, or without. -/
inductive Part (K : Type) where
  | decimal (x : K)
  | whole (z : Int)

/-- The text of a real number. -/
def Part.json : Part K → JVal K
  | .decimal x => .flt x
  | .whole z => .int z

/-- The value of a real number. -/
def Part.value : Part K → K
  | .decimal x => x
  | .whole z => z

/-- An entry of a table as written in the file. -/
inductive Entry (K : Type) where
  /-- a number with a decimal point or exponent -/
  | decimal (x : K)
  /-- a number without -/
  | whole (z : Int)
  /-- `{"__complex__": true, "real": ..., "imag": ...}` -/
  | complex (re im : Part K)
  | text (s : String)
  | missing

/-- The text of an entry. -/
def Entry.json : Entry K → JVal K
  | .decimal x => .flt x
  | .whole z => .int z
  | .complex re im => .dict [("__complex__", .bool true), ("real", re.json), ("imag", im.json)]
  | .text s => .str s
  | .missing => .null

/-- The number an entry states, if it states one. -/
def Entry.value : Entry K → Option (Num K)
  | .decimal x => some (.real x)
  | .whole z => some (.real z)
  | .complex re im => some (.cplx re.value im.value)
  | .text _ => none
  | .missing => none

/-- Is the entry a number written without a decimal point? -/
def Entry.isWhole : Entry K → Bool
  | .whole _ => true
  | _ => false

/-- A table: its unit and its entries. -/
structure Table (K : Type) where
  unit : String
  entries : List (String × Entry K)

/-- The text of a table. -/
def Table.json (t : Table K) : JVal K :=
  .dict (("__units__", .str t.unit) :: t.entries.map fun e => (e.1, e.2.json))

/-- A data file: free text and tables; `key` is the key that introduces the tables. -/
structure RefFile (K : Type) where
  key : String
  notes : List (String × String)
  tables : List (String × Table K)

/-- The text of a file. -/
def RefFile.json (f : RefFile K) : JVal K :=
  .dict (f.notes.map (fun e => (e.1, JVal.str e.2)) ++
    [(f.key, .dict (f.tables.map fun e => (e.1, e.2.json)))])

/-- No key of the file collides with the two keys that have a meaning. -/
structure RefFile.Good (f : RefFile K) : Prop where
  key : f.key ≠ "__complex__"
  notes : ∀ e ∈ f.notes, e.1 ≠ "__complex__" ∧ e.1 ≠ "physical_property"
  tables : ∀ e ∈ f.tables, e.1 ≠ "__complex__"
  entries : ∀ e ∈ f.tables, ∀ x ∈ e.2.entries, x.1 ≠ "__complex__" ∧ x.1 ≠ "__units__"

/-- The file is what a collection name refers to. -/
def Holds (fs : Files K) (collection : String) (v : JVal K) : Prop :=
  (collection = "Sears1992" ∧ fs.shipped "sears-1992.json" = .ok v) ∨
  (collection = "BlueBook" ∧ fs.shipped "bluebook.json" = .ok v) ∨
  (collection ≠ "Sears1992" ∧ collection ≠ "BlueBook" ∧ fs.disk collection = some (.ok v))

/-! ## Reading -/

/-- An entry after `custom_decode`. -/
def Entry.decoded : Entry K → JVal K
  | .complex re im => .cplx re.value im.value
  | e => e.json

theorem decode_part (p : Part K) : decode p.json = .ok p.json ∧ complexArg p.json = .ok p.value := by
  cases p <;> simp [Part.json, Part.value, decode, complexArg]

theorem decode_entry (e : Entry K) : decode e.json = .ok e.decoded := by
  cases e <;>
    simp [Entry.json, Entry.decoded, decode, decodeItems, customDecode, item, bind,
      Except.bind, pure, Except.pure, List.lookup, decode_part]

theorem decodeItems_of {β : Type} (l : List (String × β)) (f : β → JVal K) (g : β → JVal K)
    (h : ∀ e ∈ l, decode (f e.2) = .ok (g e.2)) :
    decodeItems (l.map fun e => (e.1, f e.2)) = .ok (l.map fun e => (e.1, g e.2)) := by
  induction l with
  | nil => rfl
  | cons a l ih =>
    simp only [List.map_cons, decodeItems]
    rw [h a (by simp), ih fun e he => h e (by simp [he])]
    rfl

theorem decodeItems_append (a b a' b' : List (String × JVal K)) (h1 : decodeItems a = .ok a')
    (h2 : decodeItems b = .ok b') : decodeItems (a ++ b) = .ok (a' ++ b') := by
  induction a generalizing a' with
  | nil => cases h1; simpa using h2
  | cons x a ih =>
    obtain ⟨k, v⟩ := x
    simp only [decodeItems] at h1
    cases hv : decode v with
    | error e => rw [hv] at h1; cases h1
    | ok w =>
      rw [hv] at h1
      cases ha : decodeItems a with
      | error e => simp [bind, Except.bind, ha] at h1
      | ok r =>
        simp only [bind, Except.bind, ha, pure, Except.pure] at h1
        injection h1 with h1
        subst h1
        simp only [List.cons_append, decodeItems]
        rw [hv, ih r ha]
        rfl

theorem lookup_none {β : Type} (l : List (String × β)) (k : String) (h : ∀ e ∈ l, e.1 ≠ k) :
    l.lookup k = none := by
  induction l with
  | nil => rfl
  | cons a l ih =>
    rw [List.lookup_cons]
    have : (k == a.1) = false := by simpa using fun hk => h a (by simp) hk.symm
    rw [this]
    exact ih fun e he => h e (by simp [he])

theorem lookup_map {β γ : Type} (l : List (String × β)) (f : β → γ) (k : String) :
    (l.map fun e => (e.1, f e.2)).lookup k = (l.lookup k).map f := by
  induction l with
  | nil => rfl
  | cons a l ih =>
    rw [List.map_cons, List.lookup_cons, List.lookup_cons, ih]
    cases k == a.1 <;> rfl

theorem lookup_append {β : Type} (a b : List (String × β)) (k : String) (h : ∀ e ∈ a, e.1 ≠ k) :
    (a ++ b).lookup k = b.lookup k := by
  induction a with
  | nil => rfl
  | cons x a ih =>
    rw [List.cons_append, List.lookup_cons]
    have : (k == x.1) = false := by simpa using fun hk => h x (by simp) hk.symm
    rw [this]
    exact ih fun e he => h e (by simp [he])

theorem lookup_mem {β : Type} (l : List (String × β)) (k : String) (v : β) (h : l.lookup k = some v) :
    (k, v) ∈ l := by
  induction l with
  | nil => cases h
  | cons a l ih =>
    rw [List.lookup_cons] at h
    by_cases hk : k = a.1
    · subst hk
      simp only [beq_self_eq_true] at h
      injection h with h
      subst h
      exact List.mem_cons_self ..
    · have : (k == a.1) = false := by simpa using hk
      rw [this] at h
      exact List.mem_cons_of_mem _ (ih h)

/-- A table after decoding. -/
def Table.decoded (t : Table K) : JVal K :=
  .dict (("__units__", .str t.unit) :: t.entries.map fun e => (e.1, e.2.decoded))

theorem customDecode_plain (d : List (String × JVal K)) (h : ∀ e ∈ d, e.1 ≠ "__complex__") :
    customDecode d = .ok (.dict d) := by
  unfold customDecode
  rw [lookup_none d _ h]

theorem decode_table (t : Table K) (h : ∀ x ∈ t.entries, x.1 ≠ "__complex__") :
    decode t.json = .ok t.decoded := by
  have h1 : decodeItems (("__units__", JVal.str t.unit) :: t.entries.map fun e => (e.1, e.2.json)) =
      .ok (("__units__", .str t.unit) :: t.entries.map fun e => (e.1, e.2.decoded)) := by
    simp only [decodeItems, decode]
    rw [decodeItems_of t.entries Entry.json Entry.decoded fun e _ => decode_entry e.2]
    rfl
  simp only [Table.json, decode, h1, bind, Except.bind]
  refine customDecode_plain _ fun e he => ?_
  rcases List.mem_cons.1 he with rfl | he
  · exact (by decide : "__units__" ≠ "__complex__")
  · obtain ⟨x, hx, rfl⟩ := List.mem_map.1 he
    exact h x hx

theorem decode_file (f : RefFile K) (hf : f.Good) :
    decode f.json = .ok (.dict (f.notes.map (fun e => (e.1, JVal.str e.2)) ++
      [(f.key, .dict (f.tables.map fun e => (e.1, e.2.decoded)))])) := by
  have h1 : decodeItems (f.notes.map fun e => (e.1, (JVal.str e.2 : JVal K))) =
      .ok (f.notes.map fun e => (e.1, JVal.str e.2)) :=
    decodeItems_of f.notes JVal.str JVal.str fun e _ => rfl
  have h2 : decode (.dict (f.tables.map fun e => (e.1, e.2.json))) =
      .ok (.dict (f.tables.map fun e => (e.1, e.2.decoded))) := by
    simp only [decode]
    rw [decodeItems_of f.tables Table.json Table.decoded fun e he => decode_table e.2 fun x hx =>
      (hf.entries e he x hx).1]
    simp only [bind, Except.bind]
    refine customDecode_plain _ fun e he => ?_
    obtain ⟨x, hx, rfl⟩ := List.mem_map.1 he
    exact hf.tables x hx
  have h3 : decodeItems [(f.key, JVal.dict (f.tables.map fun e => (e.1, e.2.json)))] =
      .ok [(f.key, .dict (f.tables.map fun e => (e.1, e.2.decoded)))] := by
    simp only [decodeItems, h2, bind, Except.bind, pure, Except.pure]
  simp only [RefFile.json, decode, decodeItems_append _ _ _ _ h1 h3, bind, Except.bind]
  refine customDecode_plain _ fun e he => ?_
  rcases List.mem_append.1 he with he | he
  · obtain ⟨x, hx, rfl⟩ := List.mem_map.1 he
    exact (hf.notes x hx).1
  · rw [List.mem_singleton] at he
    subst he
    exact hf.key

theorem loadCollection_holds (fs : Files K) (c : String) (v : JVal K) (h : Holds fs c v) :
    loadCollection fs c = decode v := by
  unfold loadCollection
  rcases h with ⟨rfl, h⟩ | ⟨rfl, h⟩ | ⟨h1, h2, h⟩
  · have : shippedFiles.lookup "Sears1992" = some "sears-1992.json" := by decide
    rw [this]
    simp [h, bind, Except.bind]
  · have : shippedFiles.lookup "BlueBook" = some "bluebook.json" := by decide
    rw [this]
    simp [h, bind, Except.bind]
  · have : shippedFiles.lookup c = none := by
      apply lookup_none
      intro e he
      simp only [shippedFiles, List.mem_cons, List.not_mem_nil, or_false] at he
      rcases he with rfl | rfl
      · exact fun hh => h1 hh.symm
      · exact fun hh => h2 hh.symm
    rw [this, h]
    simp [bind, Except.bind]

theorem filterMap_map' {α β γ : Type} (l : List α) (f : α → β) (g : β → Option γ) :
    (l.map f).filterMap g = l.filterMap fun a => g (f a) := by
  induction l with
  | nil => rfl
  | cons a l ih => simp [List.filterMap_cons, ih]

theorem asNum_decoded (e : Entry K) : asNum e.decoded = if e.isWhole then none else e.value := by
  cases e <;> rfl

theorem reference_eq {U : Type} (fs : Files K) (parse : String → Option U) (f : RefFile K) (hf : f.Good)
    (hk : f.key = "physical_property") (c p : String) (hc : Holds fs c f.json) :
    getReferenceData fs parse c p = match f.tables.lookup p with
      | none => .error .valueError
      | some t => match parse t.unit with
        | none => .error .valueError
        | some u => .ok (t.entries.filterMap fun e =>
            (if e.2.isWhole then none else e.2.value).map fun x => (e.1, x, u)) := by
  unfold getReferenceData
  rw [loadCollection_holds fs c _ hc, decode_file f hf]
  have hp : properties (.dict (f.notes.map (fun e => (e.1, (JVal.str e.2 : JVal K))) ++
      [(f.key, .dict (f.tables.map fun e => (e.1, e.2.decoded)))])) =
      .ok (.dict (f.tables.map fun e => (e.1, e.2.decoded))) := by
    simp only [properties]
    rw [lookup_append _ _ _ (by
      intro e he
      obtain ⟨x, hx, rfl⟩ := List.mem_map.1 he
      exact (hf.notes x hx).2), hk]
    rfl
  simp only [bind, Except.bind, hp, getOpt]
  rw [lookup_map]
  cases ht : f.tables.lookup p with
  | none => rfl
  | some t =>
    simp only [Option.map_some]
    simp only [Table.decoded, require, List.lookup, tableUnit, beq_self_eq_true]
    cases hpu : parse t.unit with
    | none => simp only []
    | some u =>
      simp only [tableItems, List.filterMap_cons]
      rw [filterMap_map']
      simp only [asNum_decoded]
      rfl

/-- **C99** (what holds). For a data file whose numbers are written with a decimal point or exponent, the
result has exactly the numbers of the table, under their names, in the unit of the table; text and missing
values are left out. -/
theorem C99_reference_partial {U : Type} (fs : Files K) (parse : String → Option U) (f : RefFile K)
    (hf : f.Good) (hk : f.key = "physical_property") (c p : String) (hc : Holds fs c f.json) (t : Table K)
    (ht : f.tables.lookup p = some t) (u : U) (hu : parse t.unit = some u)
    (hw : ∀ e ∈ t.entries, e.2.isWhole = false) :
    getReferenceData fs parse c p =
      .ok (t.entries.filterMap fun e => e.2.value.map fun x => (e.1, x, u)) := by
  rw [reference_eq fs parse f hf hk c p hc, ht]
  simp only [hu]
  congr 1
  apply List.filterMap_congr
  intro e he
  rw [hw e he]
  rfl

/-- **C99 fails** for whole numbers: they are left out, although the file states a value.  In the table of
incoherent cross-sections that comes with Euphonic these are Sm (39 barn), Th, Xe (0) and Yb (4)
(euphonic/data/bluebook.json:166-182). -/
theorem C99_whole_numbers_dropped {U : Type} (fs : Files K) (parse : String → Option U) (f : RefFile K)
    (hf : f.Good) (hk : f.key = "physical_property") (c p : String) (hc : Holds fs c f.json) (t : Table K)
    (ht : f.tables.lookup p = some t) (u : U) (hu : parse t.unit = some u)
    (hd : (t.entries.map (·.1)).Nodup) (name : String) (z : Int) (hz : (name, Entry.whole z) ∈ t.entries) :
    ∃ r, getReferenceData fs parse c p = .ok r ∧ ∀ e ∈ r, e.1 ≠ name := by
  rw [reference_eq fs parse f hf hk c p hc, ht]
  simp only [hu]
  refine ⟨_, rfl, ?_⟩
  intro e he
  obtain ⟨x, hx, hxe⟩ := List.mem_filterMap.1 he
  intro hn
  cases hw : x.2.isWhole with
  | true => simp [hw] at hxe
  | false =>
    have hx1 : x.1 = e.1 := by
      cases hv : x.2.value with
      | none => simp [hw, hv] at hxe
      | some v => simp [hw, hv] at hxe; rw [← hxe]
    have : x = (name, Entry.whole z) := by
      have := List.inj_on_of_nodup_map hd hx hz (by simp [hx1, hn])
      exact this
    rw [this] at hw
    cases hw

/-- **C99**, refusals: an unknown property, an unknown unit and an unknown collection are value errors. -/
theorem C99_refused {U : Type} (fs : Files K) (parse : String → Option U) (c p : String) :
    (∀ f : RefFile K, f.Good → f.key = "physical_property" → Holds fs c f.json →
      (f.tables.lookup p = none ∨ ∃ t, f.tables.lookup p = some t ∧ parse t.unit = none) →
      getReferenceData fs parse c p = .error .valueError) ∧
    (c ≠ "Sears1992" → c ≠ "BlueBook" → fs.disk c = none →
      getReferenceData fs parse c p = .error .valueError) := by
  constructor
  · intro f hf hk hc h
    rw [reference_eq fs parse f hf hk c p hc]
    rcases h with h | ⟨t, h, hu⟩
    · rw [h]
    · rw [h]
      simp only [hu]
  · intro h1 h2 h3
    have : shippedFiles.lookup c = none := by
      apply lookup_none
      intro e he
      simp only [shippedFiles, List.mem_cons, List.not_mem_nil, or_false] at he
      rcases he with rfl | rfl
      · exact fun hh => h1 hh.symm
      · exact fun hh => h2 hh.symm
    simp [getReferenceData, loadCollection, this, h3, bind, Except.bind]

/-- **C99 fails** for files laid out as the documentation says (euphonic/util.py:185, key
'physical_properties'): they are refused with an `AttributeError`. -/
theorem C99_documented_layout_refused {U : Type} (fs : Files K) (parse : String → Option U) (f : RefFile K)
    (hf : f.Good) (hk : f.key = "physical_properties") (c p : String) (hc : Holds fs c f.json) :
    getReferenceData fs parse c p = .error .attributeError := by
  unfold getReferenceData
  rw [loadCollection_holds fs c _ hc, decode_file f hf]
  simp only [bind, Except.bind, properties]
  rw [lookup_append _ _ _ (by
    intro e he
    obtain ⟨x, hx, rfl⟩ := List.mem_map.1 he
    exact (hf.notes x hx).2), hk]
  rfl

/-! ## Cross-sections -/

/-- The table gives species `s` the real value `x` in unit `u`. -/
def Gives (d : List (String × Num K × PUnit' K)) (s : String) (x : K) (u : PUnit' K) : Prop :=
  d.lookup s = some (.real x, u)

theorem lookupAll_ok (d : List (String × Num K × PUnit' K)) (types : List String) (val : String → K)
    (unit : String → PUnit' K) (h : ∀ s ∈ types, Gives d s (val s) (unit s)) :
    types.mapM (lookupQty d) = .ok (types.map fun s => ⟨val s, unit s⟩) := by
  refine mapM_ok_of_forall (lookupQty d) (fun s => ⟨val s, unit s⟩) types fun s hs => ?_
  unfold lookupQty
  rw [h s hs]

/-- Plain (not offset) units of area, as all are. -/
def IsArea (u : PUnit' K) : Prop := u.dim = area ∧ u.offset = 0 ∧ u.scale ≠ 0

theorem conv_area (u w : PUnit' K) (hu : IsArea u) (hw : IsArea w) (x : K) :
    conv u w x = some (x * u.scale / w.scale) := by
  unfold conv
  rw [if_pos (by rw [hu.1, hw.1])]
  simp [PUnit'.fromBase, PUnit'.toBase, hu.2.1, hw.2.1, mul_comm]

theorem toUnit_map (w : PUnit' K) (hw : IsArea w) (l : List (Qty K)) (h : ∀ q ∈ l, IsArea q.unit) :
    l.mapM (toUnit w) = .ok (l.map fun q => q.val * q.unit.scale / w.scale) := by
  refine mapM_ok_of_forall (toUnit w) _ l fun q hq => ?_
  unfold toUnit
  rw [conv_area _ _ (h q hq) hw]

theorem checkFirst_ok (l : List (Qty K)) (hl : l ≠ []) (h : ∀ q ∈ l, IsArea q.unit) :
    checkFirst l = .ok () := by
  cases l with
  | nil => exact absurd rfl hl
  | cons a l =>
    simp only [checkFirst]
    rw [if_pos (h a (by simp)).1]

/-- **C100**, a dictionary of cross-sections: every atom gets the value given for its species, in millibarn,
whatever the weighting. -/
theorem C100_dictionary (fs : Files K) (parse : String → Option (PUnit' K)) (mbarn : PUnit' K)
    (hm : IsArea mbarn) (w : Option String)
    (hw : w ∈ [none, some "coherent", some "incoherent", some "coherent-plus-incoherent"])
    (d : List (String × Num K × PUnit' K)) (types : List String) (ht : types ≠ [])
    (val : String → K) (unit : String → PUnit' K) (hu : ∀ s ∈ types, IsArea (unit s))
    (h : ∀ s ∈ types, Gives d s (val s) (unit s)) :
    crossSections fs parse mbarn w (.table d) types =
      .ok (some (types.map fun s => val s * (unit s).scale / mbarn.scale)) := by
  unfold crossSections
  rw [if_neg (fun hn => hn hw)]
  simp only [csData, bind, Except.bind, csOfTables, List.getD_cons_zero, lookupAll_ok d types val unit h,
    List.length_cons, List.length_nil]
  have hne : (types.map fun s => (⟨val s, unit s⟩ : Qty K)) ≠ [] := by simpa using ht
  have hall : ∀ q ∈ types.map fun s => (⟨val s, unit s⟩ : Qty K), IsArea q.unit := by
    intro q hq
    obtain ⟨s, hs, rfl⟩ := List.mem_map.1 hq
    exact hu s hs
  simp only [Nat.reduceAdd, OfNat.one_ne_ofNat, if_false, checkFirst_ok _ hne hall,
    toUnit_map mbarn hm _ hall, List.map_map]
  rfl

/-- **C100**, no weighting and a named collection: nothing is read and no weights are applied. -/
theorem C100_unweighted (fs : Files K) (parse : String → Option (PUnit' K)) (mbarn : PUnit' K)
    (s : String) (types : List String) :
    crossSections fs parse mbarn none (.name s) types = .ok none := by
  simp [crossSections, csData, bind, Except.bind]

/-- **C100**, coherent or incoherent weighting with a named collection. -/
theorem C100_single (fs : Files K) (parse : String → Option (PUnit' K)) (mbarn : PUnit' K)
    (hm : IsArea mbarn) (w : String) (hw : w = "coherent" ∨ w = "incoherent")
    (c : String) (d : List (String × Num K × PUnit' K))
    (hd : getReferenceData fs parse c (w ++ "_cross_section") = .ok d)
    (types : List String) (ht : types ≠ [])
    (val : String → K) (unit : String → PUnit' K) (hu : ∀ s ∈ types, IsArea (unit s))
    (h : ∀ s ∈ types, Gives d s (val s) (unit s)) :
    crossSections fs parse mbarn (some w) (.name c) types =
      .ok (some (types.map fun s => val s * (unit s).scale / mbarn.scale)) := by
  unfold crossSections
  rw [if_neg (by rcases hw with rfl | rfl <;> simp)]
  have hn : weightNames w = [w] := by
    unfold weightNames
    rw [if_neg (by rcases hw with rfl | rfl <;> decide)]
  simp only [csData, hn, List.mapM_cons, List.mapM_nil, hd, bind, Except.bind, pure, Except.pure,
    csOfTables, List.getD_cons_zero, lookupAll_ok d types val unit h, List.length_cons, List.length_nil]
  have hne : (types.map fun s => (⟨val s, unit s⟩ : Qty K)) ≠ [] := by simpa using ht
  have hall : ∀ q ∈ types.map fun s => (⟨val s, unit s⟩ : Qty K), IsArea q.unit := by
    intro q hq
    obtain ⟨s, hs, rfl⟩ := List.mem_map.1 hq
    exact hu s hs
  simp only [Nat.reduceAdd, OfNat.one_ne_ofNat, if_false, checkFirst_ok _ hne hall,
    toUnit_map mbarn hm _ hall, List.map_map]
  rfl

/-- **C100**, coherent-plus-incoherent weighting: the two cross-sections of the species are added. -/
theorem C100_sum (fs : Files K) (parse : String → Option (PUnit' K)) (mbarn : PUnit' K)
    (hm : IsArea mbarn) (c : String) (d1 d2 : List (String × Num K × PUnit' K))
    (h1 : getReferenceData fs parse c "coherent_cross_section" = .ok d1)
    (h2 : getReferenceData fs parse c "incoherent_cross_section" = .ok d2)
    (types : List String) (ht : types ≠ [])
    (v1 v2 : String → K) (u1 u2 : String → PUnit' K)
    (hu1 : ∀ s ∈ types, IsArea (u1 s)) (hu2 : ∀ s ∈ types, IsArea (u2 s))
    (hg1 : ∀ s ∈ types, Gives d1 s (v1 s) (u1 s)) (hg2 : ∀ s ∈ types, Gives d2 s (v2 s) (u2 s)) :
    crossSections fs parse mbarn (some "coherent-plus-incoherent") (.name c) types =
      .ok (some (types.map fun s =>
        v1 s * (u1 s).scale / mbarn.scale + v2 s * (u2 s).scale / mbarn.scale)) := by
  unfold crossSections
  rw [if_neg (by simp)]
  have hn : weightNames "coherent-plus-incoherent" = ["coherent", "incoherent"] := by
    unfold weightNames
    rw [if_pos rfl]
  have e1 : getReferenceData fs parse c ("coherent" ++ "_cross_section") = .ok d1 := h1
  have e2 : getReferenceData fs parse c ("incoherent" ++ "_cross_section") = .ok d2 := h2
  have hadd : addAll (types.map fun s => (⟨v1 s, u1 s⟩ : Qty K)) (types.map fun s => ⟨v2 s, u2 s⟩) =
      .ok (types.map fun s => ⟨v1 s + v2 s * (u2 s).scale / (u1 s).scale, u1 s⟩) := by
    unfold addAll
    rw [List.zip_map', List.mapM_map]
    refine mapM_ok_of_forall _ _ types fun s hs => ?_
    simp only [Function.comp, addQty, conv_area _ _ (hu2 s hs) (hu1 s hs)]
  simp only [csData, hn, List.mapM_cons, List.mapM_nil, e1, e2, bind, Except.bind, pure, Except.pure,
    csOfTables, List.getD_cons_zero, List.getD_cons_succ, lookupAll_ok d1 types v1 u1 hg1,
    lookupAll_ok d2 types v2 u2 hg2, List.length_cons, List.length_nil, hadd, Nat.reduceAdd, if_true]
  have hne : (types.map fun s => (⟨v1 s + v2 s * (u2 s).scale / (u1 s).scale, u1 s⟩ : Qty K)) ≠ [] := by
    simpa using ht
  have hall : ∀ q ∈ types.map fun s => (⟨v1 s + v2 s * (u2 s).scale / (u1 s).scale, u1 s⟩ : Qty K),
      IsArea q.unit := by
    intro q hq
    obtain ⟨s, hs, rfl⟩ := List.mem_map.1 hq
    exact hu1 s hs
  simp only [checkFirst_ok _ hne hall, toUnit_map mbarn hm _ hall, List.map_map]
  congr 2
  apply List.map_congr_left
  intro s hs
  have := (hu1 s hs).2.2
  simp only [Function.comp]
  field_simp

theorem mapM_error_mem {α β : Type} (f : α → Except Err β) (l : List α) (a : α) (ha : a ∈ l) (e : Err)
    (h : f a = .error e) : ∃ e', l.mapM f = .error e' := by
  induction l with
  | nil => cases ha
  | cons b l ih =>
    rw [List.mapM_cons]
    cases hb : f b with
    | error e' => exact ⟨e', rfl⟩
    | ok v =>
      rcases List.mem_cons.1 ha with rfl | ha
      · rw [h] at hb; cases hb
      · obtain ⟨e', he'⟩ := ih ha
        exact ⟨e', by simp [bind, Except.bind, he']⟩

/-- **C100 fails** for species whose cross-section is written as a whole number in the data file: the
calculation is refused, e.g. the incoherent-weighted density of states of anything containing Sm, Th, Xe or
Yb with the data that come with Euphonic. -/
theorem C100_whole_number_refused (fs : Files K) (parse : String → Option (PUnit' K)) (mbarn : PUnit' K)
    (f : RefFile K) (hf : f.Good) (hk : f.key = "physical_property") (c w : String)
    (hw : w = "coherent" ∨ w = "incoherent") (hc : Holds fs c f.json) (t : Table K)
    (ht : f.tables.lookup (w ++ "_cross_section") = some t) (u : PUnit' K) (hu : parse t.unit = some u)
    (hd : (t.entries.map (·.1)).Nodup) (name : String) (z : Int) (hz : (name, Entry.whole z) ∈ t.entries)
    (types : List String) (hn : name ∈ types) :
    ∃ e, crossSections fs parse mbarn (some w) (.name c) types = .error e := by
  obtain ⟨r, hr, hmiss⟩ := C99_whole_numbers_dropped fs parse f hf hk c (w ++ "_cross_section") hc t ht u
    hu hd name z hz
  obtain ⟨e, he⟩ := mapM_error_mem (lookupQty r) types name hn .keyError (by
    unfold lookupQty
    rw [lookup_none r name hmiss])
  refine ⟨e, ?_⟩
  have hnm : weightNames w = [w] := by
    unfold weightNames
    rw [if_neg (by rcases hw with rfl | rfl <;> decide)]
  unfold crossSections
  rw [if_neg (by rcases hw with rfl | rfl <;> simp)]
  simp only [csData, hnm, List.mapM_cons, List.mapM_nil, hr, bind, Except.bind, pure, Except.pure,
    csOfTables, List.getD_cons_zero, he]

/-- **C100**, cross-sections that are not areas are refused. -/
theorem C100_wrong_dimension (fs : Files K) (parse : String → Option (PUnit' K)) (mbarn : PUnit' K)
    (w : Option String) (hw : w ∈ [none, some "coherent", some "incoherent", some "coherent-plus-incoherent"])
    (d : List (String × Num K × PUnit' K)) (s : String) (types : List String)
    (val : String → K) (unit : String → PUnit' K) (hu : (unit s).dim ≠ area)
    (h : ∀ x ∈ s :: types, Gives d x (val x) (unit x)) :
    crossSections fs parse mbarn w (.table d) (s :: types) = .error .valueError := by
  unfold crossSections
  rw [if_neg (fun hn => hn hw)]
  simp only [csData, bind, Except.bind, csOfTables, List.getD_cons_zero,
    lookupAll_ok d (s :: types) val unit h, List.length_cons, List.length_nil, Nat.reduceAdd,
    OfNat.one_ne_ofNat, if_false, List.map_cons, checkFirst, if_neg hu]

/-! ## A concrete file -/

/-- Part of euphonic/data/bluebook.json: oxygen 0.0008 barn, samarium 39 barn. -/
def sampleFile : RefFile ℚ where
  key := "physical_property"
  notes := [("description", "Blue book")]
  tables := [("incoherent_cross_section",
    ⟨"barn", [("O", .decimal (8 / 10000)), ("Sm", .whole 39), ("B", .complex (.whole 1) (.decimal 2)), ("Po", .missing)]⟩)]

theorem sampleFile_good : sampleFile.Good where
  key := by decide
  notes := by decide
  tables := by
    intro e he
    simp only [sampleFile, List.mem_singleton] at he
    subst he
    decide
  entries := by
    intro e he x hx
    simp only [sampleFile, List.mem_singleton] at he
    subst he
    simp only [List.mem_cons, List.not_mem_nil, or_false] at hx
    rcases hx with rfl | rfl | rfl | rfl <;> decide

/-- A file system with that file. -/
def sampleFiles : Files ℚ where
  shipped := fun n => if n = "bluebook.json" then .ok sampleFile.json else .error .ioError
  disk := fun _ => none

def barn : PUnit' ℚ := ⟨area, 1000, 0⟩
def mbarn : PUnit' ℚ := ⟨area, 1, 0⟩

/-- The hypotheses of the theorems can be met; samarium is dropped and refused. -/
example : Holds sampleFiles "BlueBook" sampleFile.json ∧
    getReferenceData sampleFiles (fun s => if s = "barn" then some barn else none) "BlueBook"
      "incoherent_cross_section" =
      .ok [("O", .real (8 / 10000), barn), ("B", .cplx 1 2, barn)] ∧
    crossSections sampleFiles (fun s => if s = "barn" then some barn else none) mbarn (some "incoherent")
      (.name "BlueBook") ["O", "O"] = .ok (some [8 / 10, 8 / 10]) ∧
    ∃ e, crossSections sampleFiles (fun s => if s = "barn" then some barn else none) mbarn
      (some "incoherent") (.name "BlueBook") ["O", "Sm"] = .error e := by
  have hc : Holds sampleFiles "BlueBook" sampleFile.json := Or.inr (Or.inl ⟨rfl, by simp [sampleFiles]⟩)
  have href := reference_eq sampleFiles (fun s => if s = "barn" then some barn else none) sampleFile
    sampleFile_good rfl "BlueBook" "incoherent_cross_section" hc
  have href' : getReferenceData sampleFiles (fun s => if s = "barn" then some barn else none) "BlueBook"
      "incoherent_cross_section" =
      .ok [("O", .real (8 / 10000), barn), ("B", .cplx 1 2, barn)] := by
    rw [href]
    simp [sampleFile, Entry.isWhole, Entry.value, Part.value]
  refine ⟨hc, href', ?_, ?_⟩
  · rw [C100_single sampleFiles _ mbarn ⟨rfl, rfl, by norm_num [mbarn]⟩ "incoherent" (Or.inr rfl) "BlueBook"
      _ href' ["O", "O"] (by simp) (fun _ => 8 / 10000) (fun _ => barn)
      (fun s _ => ⟨rfl, rfl, by norm_num [barn]⟩) (by
        intro s hs
        simp only [List.mem_cons, List.not_mem_nil, or_false, or_self] at hs
        subst hs
        rfl)]
    norm_num [barn, mbarn]
  · exact C100_whole_number_refused sampleFiles _ mbarn sampleFile sampleFile_good rfl "BlueBook"
      "incoherent" (Or.inr rfl) hc _ rfl barn rfl (by decide) "Sm" 39 (by simp) _ (by simp)

/-- The layout given in the documentation. -/
example : getReferenceData (U := Unit) (K := ℚ)
    ⟨fun _ => .error .ioError, fun _ => some (.ok (RefFile.json ⟨"physical_properties", [],
      [("length", ⟨"fm", [("H", .decimal 1)]⟩)]⟩))⟩ (fun _ => some ()) "x.json" "length" =
    .error .attributeError :=
  C99_documented_layout_refused _ _ ⟨"physical_properties", [], [("length", ⟨"fm", [("H", .decimal 1)]⟩)]⟩
    ⟨by decide, by simp, by
      intro e he
      simp only [List.mem_singleton] at he
      subst he
      decide, by
      intro e he x hx
      simp only [List.mem_singleton] at he
      subst he
      simp only [List.mem_singleton] at hx
      subst hx
      decide⟩ rfl _ _ (Or.inr (Or.inr ⟨by decide, by decide, rfl⟩))

end Euphonic.RefData
