import Verif.Prelude
import Verif.Model.Dict

/-! # Property C18: the JSON form of an object dictionary -/

set_option autoImplicit false
set_option linter.unusedSectionVars false

namespace Euphonic.Py

variable {U α : Type}

/-! ## Specification -/

/-- The number of elements fits the shape. -/
def NdArr.WF {ε : Type} (a : NdArr ε) : Prop := a.data.length = a.shape.prod

/-- No extent is zero. -/
def NdArr.NonEmpty {ε : Type} (a : NdArr ε) : Prop := ∀ n ∈ a.shape, 0 < n

mutual
/-- Values that JSON represents directly: numbers, strings, `None`, lists and dictionaries of those. -/
def Plain : PyVal U α → Prop
  | .none => True
  | .int _ => True
  | .flt _ => True
  | .str _ => True
  | .list l => PlainList l
  | .dict d => PlainDict d
  | _ => False
def PlainList : List (PyVal U α) → Prop
  | [] => True
  | v :: l => Plain v ∧ PlainList l
def PlainDict : Dict U α → Prop
  | [] => True
  | (_, v) :: l => Plain v ∧ PlainDict l
end

mutual
/-- Object dictionaries: scalars; non-empty real, integer or string arrays of any rank at least 1;
non-empty complex arrays under the keys declared as complex; lists of tuples under the keys declared
as tuples; `metadata`, holding plain values; nested dictionaries. -/
def StorableDict (td : String → Option JType) : Dict U α → Prop
  | [] => True
  | (k, v) :: d => StorableVal td k v ∧ StorableDict td d
def StorableVal (td : String → Option JType) (k : String) : PyVal U α → Prop
  | .none => True
  | .int _ => True
  | .flt _ => True
  | .str _ => True
  | .arr a => td k = none ∧ a.WF ∧ a.NonEmpty ∧ a.shape ≠ []
  | .carr a => td k = some .complex ∧ a.WF ∧ a.NonEmpty
  | .list l => td k = some .tuple ∧ ∀ v ∈ l, ∃ t, v = .tuple t ∧ PlainList t
  | .dict d => if k = "metadata" then PlainDict d else StorableDict td d
  | .tuple _ => False
  | .qty _ _ => False
end

/-! ## Lemmas on arrays -/

theorem length_chunks {ε : Type} (n k : Nat) (l : List ε) : (chunks n k l).length = n := by
  induction n generalizing l with
  | zero => rfl
  | succ n ih => simp [chunks, ih]

theorem flatten_chunks {ε : Type} (n k : Nat) (l : List ε) (h : l.length = n * k) :
    (chunks n k l).flatten = l := by
  induction n generalizing l with
  | zero =>
    have : l = [] := List.length_eq_zero_iff.1 (by simpa using h)
    simp [chunks, this]
  | succ n ih =>
    rw [chunks, List.flatten_cons, ih _ (by rw [List.length_drop, h, Nat.succ_mul]; omega),
      List.take_append_drop]

theorem mem_chunks_length {ε : Type} (n k : Nat) (l : List ε) (h : l.length = n * k) :
    ∀ c ∈ chunks n k l, c.length = k := by
  induction n generalizing l with
  | zero => simp [chunks]
  | succ n ih =>
    intro c hc
    rw [chunks, List.mem_cons] at hc
    rcases hc with rfl | hc
    · rw [List.length_take, h, Nat.succ_mul]; omega
    · exact ih _ (by rw [List.length_drop, h, Nat.succ_mul]; omega) c hc

theorem unnestList_map (L : List (List (Elem α))) (f : List (Elem α) → PyVal U α) (s : List Nat)
    (h : ∀ c ∈ L, unnest (f c) = some (s, c)) :
    unnestList (L.map f) = some (L.map fun c => (s, c)) := by
  induction L with
  | nil => simp [unnestList]
  | cons c L ih =>
    rw [List.map_cons, unnestList, h c (by simp), ih fun c' hc => h c' (by simp [hc])]
    rfl

theorem unnest_toPy (e : Elem α) : unnest (e.toPy : PyVal U α) = some ([], [e]) := by
  cases e <;> simp [Elem.toPy, unnest]

/-- `np.array(a.tolist())` is `a`. -/
theorem unnest_nest (s : List Nat) (l : List (Elem α)) (hpos : ∀ n ∈ s, 0 < n)
    (hl : l.length = s.prod) : unnest (nest s l : PyVal U α) = some (s, l) := by
  induction s generalizing l with
  | nil =>
    match l, hl with
    | [e], _ => simp [nest, unnest_toPy]
    | [], h => simp at h
    | _ :: _ :: _, h => simp at h
  | cons n s ih =>
    have hlen : l.length = n * s.prod := by simpa using hl
    have hch : unnestList ((chunks n s.prod l).map (nest s : _ → PyVal U α)) =
        some ((chunks n s.prod l).map fun c => (s, c)) :=
      unnestList_map _ _ _ fun c hc => ih c (fun m hm => hpos m (by simp [hm]))
        (mem_chunks_length n s.prod l hlen c hc)
    rw [nest, unnest, hch]
    have hn := hpos n (by simp)
    have hfl := flatten_chunks n s.prod l hlen
    have hle := length_chunks n s.prod l
    cases hc : chunks n s.prod l with
    | nil => rw [hc] at hle; simp at hle; omega
    | cons c L =>
      rw [hc] at hfl hle
      simp only [List.map_cons, List.length_cons] at hle ⊢
      rw [if_pos (by simp)]
      simp only [List.length_map, List.map_map, Function.comp_def, List.map_id', hle]
      rw [← hfl, List.flatten_cons]

theorem pairUp_flatMap (l : List (α × α)) :
    pairUp (l.flatMap fun z => [Elem.flt z.1, Elem.flt z.2]) = some l := by
  induction l with
  | nil => rfl
  | cons z l ih =>
    rw [List.flatMap_cons]
    simp [pairUp, ih]

theorem realToComplex_complexToReal (a : NdArr (α × α)) :
    realToComplex (complexToReal a).shape (complexToReal a).data = .ok a := by
  simp [realToComplex, complexToReal, pairUp_flatMap]

theorem length_complexToReal (a : NdArr (α × α)) (h : a.WF) : (complexToReal a).WF := by
  unfold NdArr.WF at h ⊢
  have : ∀ l : List (α × α),
      (l.flatMap fun z => [Elem.flt z.1, Elem.flt z.2]).length = l.length * 2 := by
    intro l
    induction l with
    | nil => rfl
    | cons z l ih => rw [List.flatMap_cons, List.length_append, ih]; simp; omega
  simp only [complexToReal, this, List.prod_append, h, List.prod_cons, List.prod_nil, mul_one]

mutual
theorem jsonTrip_plain : ∀ v : PyVal U α, Plain v → jsonTrip v = .ok v
  | .none, _ => by simp [jsonTrip]
  | .int _, _ => by simp [jsonTrip]
  | .flt _, _ => by simp [jsonTrip]
  | .str _, _ => by simp [jsonTrip]
  | .list l, h => by
    rw [jsonTrip, jsonTripList_plain l (by simpa [Plain] using h)]
  | .dict d, h => by
    rw [jsonTrip, jsonTripDict_plain d (by simpa [Plain] using h)]
  | .tuple _, h => by simp [Plain] at h
  | .arr _, h => by simp [Plain] at h
  | .carr _, h => by simp [Plain] at h
  | .qty _ _, h => by simp [Plain] at h
theorem jsonTripList_plain : ∀ l : List (PyVal U α), PlainList l → jsonTripList l = .ok l
  | [], _ => by simp [jsonTripList]
  | v :: l, h => by
    rw [PlainList] at h
    rw [jsonTripList, jsonTrip_plain v h.1, jsonTripList_plain l h.2]
theorem jsonTripDict_plain : ∀ d : Dict U α, PlainDict d → jsonTripDict d = .ok d
  | [], _ => by simp [jsonTripDict]
  | (k, v) :: d, h => by
    rw [PlainDict] at h
    rw [jsonTripDict, jsonTrip_plain v h.1, jsonTripDict_plain d h.2]
end

theorem jsonTripList_map (L : List (List (Elem α))) (f : List (Elem α) → PyVal U α)
    (h : ∀ c ∈ L, jsonTrip (f c) = .ok (f c)) : jsonTripList (L.map f) = .ok (L.map f) := by
  induction L with
  | nil => simp [jsonTripList]
  | cons c L ih =>
    rw [List.map_cons, jsonTripList, h c (by simp), ih fun c' hc => h c' (by simp [hc])]

theorem jsonTrip_nest (s : List Nat) (l : List (Elem α)) :
    jsonTrip (nest s l : PyVal U α) = .ok (nest s l) := by
  induction s generalizing l with
  | nil =>
    cases l with
    | nil => simp [nest, jsonTrip]
    | cons e l => cases e <;> simp [nest, Elem.toPy, jsonTrip]
  | cons n s ih =>
    rw [nest, jsonTrip, jsonTripList_map _ _ fun c _ => ih c]

theorem tuples_trip (l : List (PyVal U α)) (h : ∀ v ∈ l, ∃ t, v = .tuple t ∧ PlainList t) :
    ∃ r, jsonTripList l = .ok r ∧ r.mapM toTuple = .ok l := by
  induction l with
  | nil => exact ⟨[], by simp [jsonTripList], rfl⟩
  | cons v l ih =>
    obtain ⟨t, rfl, ht⟩ := h v (by simp)
    obtain ⟨r, h1, h2⟩ := ih fun w hw => h w (by simp [hw])
    refine ⟨.list t :: r, ?_, ?_⟩
    · rw [jsonTripList, jsonTrip, jsonTripList_plain t ht, h1]
    · rw [List.mapM_cons, h2]; rfl

mutual
theorem json_val (td : String → Option JType) (k : String) : ∀ v : PyVal U α, StorableVal td k v →
    ∃ w, jsonTrip (toJsonVal k v) = .ok w ∧ fromJsonVal td k w = .ok v
  | .none, _ => ⟨.none, by simp [toJsonVal, jsonTrip], by simp [fromJsonVal]⟩
  | .int z, _ => ⟨.int z, by simp [toJsonVal, jsonTrip], by simp [fromJsonVal]⟩
  | .flt z, _ => ⟨.flt z, by simp [toJsonVal, jsonTrip], by simp [fromJsonVal]⟩
  | .str z, _ => ⟨.str z, by simp [toJsonVal, jsonTrip], by simp [fromJsonVal]⟩
  | .arr a, h => by
    rw [StorableVal] at h
    obtain ⟨h1, h2, h3, h4⟩ := h
    have hu := unnest_nest (U := U) a.shape a.data h3 h2
    refine ⟨nest a.shape a.data, by rw [toJsonVal, jsonTrip_nest], ?_⟩
    obtain ⟨sh, dat⟩ := a
    cases sh with
    | nil => exact absurd rfl h4
    | cons n s =>
      simp only [nest] at hu ⊢
      simp only [fromJsonVal, h1, hu]
  | .carr a, h => by
    rw [StorableVal] at h
    obtain ⟨h1, h2, h3⟩ := h
    have hu := unnest_nest (U := U) (complexToReal a).shape (complexToReal a).data (by
      intro n hn
      simp only [complexToReal, List.mem_append, List.mem_singleton] at hn
      rcases hn with hn | rfl
      · exact h3 n hn
      · omega) (length_complexToReal a h2)
    have hr := realToComplex_complexToReal a
    refine ⟨nest (complexToReal a).shape (complexToReal a).data, by rw [toJsonVal, jsonTrip_nest], ?_⟩
    have hne : (complexToReal a).shape ≠ [] := by simp [complexToReal]
    generalize (complexToReal a).shape = sh at *
    cases sh with
    | nil => exact absurd rfl hne
    | cons n s =>
      simp only [nest] at hu ⊢
      simp only [fromJsonVal, h1, hu, hr, Except.map]
  | .list l, h => by
    rw [StorableVal] at h
    obtain ⟨r, h1, h2⟩ := tuples_trip l h.2
    refine ⟨.list r, by rw [toJsonVal, jsonTrip, h1], ?_⟩
    simp only [fromJsonVal, h.1, h2, Except.map]
  | .dict d, h => by
    rw [StorableVal] at h
    by_cases hk : k = "metadata"
    · rw [if_pos hk] at h
      refine ⟨.dict d, ?_, ?_⟩
      · simp [toJsonVal, hk, jsonTrip, jsonTripDict_plain d h]
      · simp [fromJsonVal, hk]
    · rw [if_neg hk] at h
      obtain ⟨r, h1, h2⟩ := json_dict td d h
      refine ⟨.dict r, ?_, ?_⟩
      · simp [toJsonVal, hk, jsonTrip, h1]
      · simp [fromJsonVal, hk, h2, Except.map]
  | .tuple l, h => by simp [StorableVal] at h
  | .qty v u, h => by simp [StorableVal] at h
theorem json_dict (td : String → Option JType) : ∀ d : Dict U α, StorableDict td d →
    ∃ r, jsonTripDict (toJsonDict d) = .ok r ∧ fromJsonDict td r = .ok d
  | [], _ => ⟨[], by simp [toJsonDict, jsonTripDict], by simp [fromJsonDict]⟩
  | (k, v) :: d, h => by
    rw [StorableDict] at h
    obtain ⟨w, h1, h2⟩ := json_val td k v h.1
    obtain ⟨r, h3, h4⟩ := json_dict td d h.2
    refine ⟨(k, w) :: r, ?_, ?_⟩
    · rw [toJsonDict, jsonTripDict, h1, h3]
    · rw [fromJsonDict, h2, h4]
end

/-- **C18**, partial: writing an object dictionary (with non-empty arrays) to a JSON file and reading
it gives the same dictionary: scalars, strings, arrays of every rank and shape, complex arrays under
the keys declared complex, tick labels, metadata, nested dictionaries at every depth.
Missing: arrays with an extent zero, whose shape is lost (`C18_empty_array_shape_lost`). -/
theorem C18_json_roundtrip_partial (td : String → Option JType) (d : Dict U α)
    (h : StorableDict td d) : jsonFileTrip td d = .ok d := by
  obtain ⟨r, h1, h2⟩ := json_dict td d h
  simp only [jsonFileTrip, h1, h2]

/-- **C18**, finding: an array of shape `(0, 3)` comes back with shape `(0,)`, and a complex array of
shape `(0, 3)` (the eigenvectors of zero q-points) cannot be read at all. -/
theorem C18_empty_array_shape_lost :
    jsonFileTrip (fun _ => none) ([("a", .arr ⟨[0, 3], []⟩)] : Dict U α) =
      .ok [("a", .arr ⟨[0], []⟩)] ∧
    jsonFileTrip (fun _ => some .complex) ([("a", .carr ⟨[0, 3], []⟩)] : Dict U α) =
      .error .valueError := by
  constructor <;>
  simp [jsonFileTrip, toJsonDict, toJsonVal, nest, chunks, jsonTripDict, jsonTrip, jsonTripList,
    fromJsonDict, fromJsonVal, unnest, unnestList, complexToReal, realToComplex, Except.map]

/-- **C18**: a complex array under a key that is not declared complex is not restored (it comes back
as a real array with an additional axis), so the declaration is necessary. -/
theorem C18_undeclared_complex (x : α) :
    jsonFileTrip (fun _ => none) ([("a", .carr ⟨[1], [(x, x)]⟩)] : Dict U α) =
      .ok [("a", .arr ⟨[1, 2], [.flt x, .flt x]⟩)] := by
  rfl

/-- Non-vacuity: a dictionary with a nested dictionary, a rank-2 array, a complex array of rank 2,
tick labels and metadata. -/
example : StorableDict (fun k => if k = "eigenvectors" then some .complex
      else if k = "x_tick_labels" then some .tuple else none)
    ([("crystal", .dict [("atom_r", .arr ⟨[2, 1], [.flt 1, .flt 2]⟩), ("n_atoms", .int 2)]),
      ("eigenvectors", .carr ⟨[1, 2], [(1, 2), (3, 4)]⟩),
      ("x_tick_labels", .list [.tuple [.int 0, .str "X"]]),
      ("metadata", .dict [("line_data", .list [.dict [("label", .str "a")]])])] : Dict Unit ℚ) := by
  simp [StorableDict, StorableVal, NdArr.WF, NdArr.NonEmpty, PlainDict, Plain, PlainList]

end Euphonic.Py
