import Verif.Props.Args
import Mathlib.Algebra.Field.Rat

/-!
# The namespaces of the tools (C127)
-/

set_option autoImplicit false
set_option linter.unusedSectionVars false

namespace Euphonic.Args

variable {K : Type}

/-! ## Specification -/

/-- A string. -/
def Str (v : Val K) : Prop := ∃ s, v = .one (.str s)

/-- One of some strings. -/
def OneOf (l : List String) (v : Val K) : Prop := ∃ s ∈ l, v = .one (.str s)

/-- An integer. -/
def Int (v : Val K) : Prop := ∃ z, v = .one (.int z)

/-- A number. -/
def Flt (v : Val K) : Prop := ∃ r, v = .one (.flt r)

/-- `True` or `False`. -/
def Boolean (v : Val K) : Prop := ∃ b, v = .bool b

/-- `None` or something else. -/
def Maybe (A : Val K → Prop) (v : Val K) : Prop := v = .none ∨ A v

/-- `n` numbers. -/
def Flts (n : Nat) (v : Val K) : Prop := ∃ l : List K, l.length = n ∧ v = .list (l.map .flt)

/-- One or more numbers. -/
def FltsPlus (v : Val K) : Prop := ∃ l : List K, l ≠ [] ∧ v = .list (l.map .flt)

/-- `n` integers. -/
def Ints (n : Nat) (v : Val K) : Prop := ∃ l : List ℤ, l.length = n ∧ v = .list (l.map .int)

/-- One or more integers. -/
def IntsPlus (v : Val K) : Prop := ∃ l : List ℤ, l ≠ [] ∧ v = .list (l.map .int)

/-- `n` strings. -/
def Strs (n : Nat) (v : Val K) : Prop := ∃ l : List String, l.length = n ∧ v = .list (l.map .str)

/-- Some strings, or none. -/
def StrsStar (v : Val K) : Prop := ∃ l : List String, v = .list (l.map .str)

/-- One or more strings. -/
def StrsPlus (v : Val K) : Prop := ∃ l : List String, l ≠ [] ∧ v = .list (l.map .str)

/-- The namespace has these attributes, and no others. -/
def Provides (ns : String → Option (Val K)) (T : List (String × (Val K → Prop))) : Prop :=
  (∀ x ∈ T, ∃ v, ns x.1 = some v ∧ x.2 v) ∧ ∀ d, (ns d).isSome → d ∈ T.map Prod.fst

/-! ## Lemmas -/

theorem list_str {c : Conv K} {o : Opt K} (ht : o.typ = .str) {vals : List String} {l : List (Scalar K)}
    (h : List.Forall₂ (ReadAs c o) vals l) : l = vals.map .str := by
  induction h with
  | nil => rfl
  | cons h1 _ ih =>
    have := h1.1
    rw [ht] at this
    rw [ih, List.map_cons, ← this]

theorem list_flt {c : Conv K} {o : Opt K} (ht : o.typ = .flt) {vals : List String} {l : List (Scalar K)}
    (h : List.Forall₂ (ReadAs c o) vals l) : ∃ r : List K, r.length = vals.length ∧ l = r.map .flt := by
  induction h with
  | nil => exact ⟨[], rfl, rfl⟩
  | cons h1 _ ih =>
    have := h1.1
    rw [ht] at this
    obtain ⟨x, _, rfl⟩ := this
    obtain ⟨r, h2, rfl⟩ := ih
    exact ⟨x :: r, by simp [h2], rfl⟩

theorem list_int {c : Conv K} {o : Opt K} (ht : o.typ = .int) {vals : List String} {l : List (Scalar K)}
    (h : List.Forall₂ (ReadAs c o) vals l) : ∃ r : List ℤ, r.length = vals.length ∧ l = r.map .int := by
  induction h with
  | nil => exact ⟨[], rfl, rfl⟩
  | cons h1 _ ih =>
    have := h1.1
    rw [ht] at this
    obtain ⟨x, _, rfl⟩ := this
    obtain ⟨r, h2, rfl⟩ := ih
    exact ⟨x :: r, by simp [h2], rfl⟩

/-- The kind of value an option gives. -/
def Shape (o : Opt K) (v : Val K) : Prop :=
  match o.nargs, o.typ, o.choices with
  | .flag, _, _ => v = o.const
  | .one, .str, none => Str v
  | .one, .str, some l => OneOf l v
  | .one, .int, _ => Int v
  | .one, .flt, _ => Flt v
  | .opt, .str, some l => v = o.const ∨ OneOf l v
  | .num k, .str, _ => Strs k v
  | .num k, .int, _ => Ints k v
  | .num k, .flt, _ => Flts k v
  | .star, .str, _ => StrsStar v
  | .plus, .str, _ => StrsPlus v
  | .plus, .int, _ => IntsPlus v
  | .plus, .flt, _ => FltsPlus v
  | _, _, _ => True

theorem ne_nil_of {α β : Type} {l : List α} {r : List β} (h : r.length = l.length) (hl : 1 ≤ l.length) : r ≠ [] := by
  rintro rfl
  simp only [List.length_nil] at h
  omega

theorem means_shape {c : Conv K} {o : Opt K} {vals : List String} {v : Val K} (h : Means c o vals v) : Shape o v := by
  obtain ⟨hf, h⟩ := h
  unfold Shape
  cases hn : o.nargs with
  | flag => rw [hn] at h; exact h
  | one =>
    rw [hn] at h
    obtain ⟨s, x, _, ⟨h1, h2⟩, rfl⟩ := h
    cases ht : o.typ with
    | str =>
      cases hc : o.choices with
      | none => rw [ht] at h1; cases h1; exact ⟨s, rfl⟩
      | some l => obtain ⟨s', hs, rfl⟩ := h2 l hc; exact ⟨s', hs, rfl⟩
    | int => rw [ht] at h1; obtain ⟨z, _, rfl⟩ := h1; exact ⟨z, rfl⟩
    | flt => rw [ht] at h1; obtain ⟨z, _, rfl⟩ := h1; exact ⟨z, rfl⟩
  | opt =>
    rw [hn] at h
    cases ht : o.typ with
    | str =>
      cases hc : o.choices with
      | none => trivial
      | some l =>
        rcases h with ⟨_, _, h⟩ | ⟨s, x, _, ⟨h1, h2⟩, rfl⟩
        · exact Or.inl h
        · obtain ⟨s', hs, rfl⟩ := h2 l hc
          exact Or.inr ⟨s', hs, rfl⟩
    | int => trivial
    | flt => trivial
  | num k =>
    rw [hn] at h hf
    obtain ⟨l, hl, rfl⟩ := h
    cases ht : o.typ with
    | str => exact ⟨vals, hf, by rw [list_str ht hl]⟩
    | int => obtain ⟨r, h1, rfl⟩ := list_int ht hl; exact ⟨r, h1.trans hf, rfl⟩
    | flt => obtain ⟨r, h1, rfl⟩ := list_flt ht hl; exact ⟨r, h1.trans hf, rfl⟩
  | star =>
    rw [hn] at h hf
    obtain ⟨l, hl, rfl⟩ := h
    cases ht : o.typ with
    | str => exact ⟨vals, by rw [list_str ht hl]⟩
    | int => trivial
    | flt => trivial
  | plus =>
    rw [hn] at h hf
    obtain ⟨l, hl, rfl⟩ := h
    cases ht : o.typ with
    | str => exact ⟨vals, ne_nil_of rfl hf, by rw [list_str ht hl]⟩
    | int => obtain ⟨r, h1, rfl⟩ := list_int ht hl; exact ⟨r, ne_nil_of h1 hf, rfl⟩
    | flt => obtain ⟨r, h1, rfl⟩ := list_flt ht hl; exact ⟨r, ne_nil_of h1 hf, rfl⟩

/-- The option gives the attribute named first a value of the kind named second. -/
def Good (o : Opt K) (x : String × (Val K → Prop)) : Prop :=
  o.dest = x.1 ∧ o.help = false ∧ (o.names = [] → o.nargs = .one) ∧ (o.names ≠ [] → x.2 o.default) ∧
    ∀ v, Shape o v → x.2 v

theorem mem_left {α β : Type} {R : α → β → Prop} {l : List α} {r : List β} (h : List.Forall₂ R l r) :
    ∀ a ∈ l, ∃ b ∈ r, R a b := by
  induction h with
  | nil => intro a ha; cases ha
  | cons h1 _ ih =>
    intro a ha
    rcases List.mem_cons.1 ha with rfl | ha
    · exact ⟨_, List.mem_cons_self, h1⟩
    · obtain ⟨b, hb, hR⟩ := ih a ha
      exact ⟨b, List.mem_cons_of_mem _ hb, hR⟩

theorem mem_right {α β : Type} {R : α → β → Prop} {l : List α} {r : List β} (h : List.Forall₂ R l r) :
    ∀ b ∈ r, ∃ a ∈ l, R a b := by
  induction h with
  | nil => intro a ha; cases ha
  | cons h1 _ ih =>
    intro a ha
    rcases List.mem_cons.1 ha with rfl | ha
    · exact ⟨_, List.mem_cons_self, h1⟩
    · obtain ⟨b, hb, hR⟩ := ih a ha
      exact ⟨b, List.mem_cons_of_mem _ hb, hR⟩

theorem forall₂_append {α β : Type} {R : α → β → Prop} {l l' : List α} {r r' : List β} (h : List.Forall₂ R l r)
    (h' : List.Forall₂ R l' r') : List.Forall₂ R (l ++ l') (r ++ r') := by
  induction h with
  | nil => exact h'
  | cons h1 _ ih => exact List.Forall₂.cons h1 ih

theorem ns_dest {c : Conv K} {P : List (Opt K)} (hP : OnePos P) {params : List String} {ns : String → Option (Val K)}
    (h : getArgs c P params = .ok ns) (d : String) (hd : (ns d).isSome) : ∃ o ∈ P, o.help = false ∧ o.dest = d := by
  obtain ⟨st, hi, hp, rfl⟩ := Inv.final hP h
  rcases hi.val d with ⟨h1, _⟩ | ⟨o', ho', hh, hd', _⟩
  · rw [h1, defaults, Option.isSome_map, List.find?_isSome] at hd
    obtain ⟨o, ho, hd⟩ := hd
    have := List.mem_filter.1 ho
    exact ⟨o, this.1, by simpa using this.2, by simpa using hd⟩
  · exact ⟨o', ho', hh, hd'⟩

theorem key_inj {T : List (String × (Val K → Prop))} (hk : (T.map Prod.fst).Nodup) {x y : String × (Val K → Prop)}
    (hx : x ∈ T) (hy : y ∈ T) (h : x.1 = y.1) : x = y :=
  List.inj_on_of_nodup_map hk hx hy h

theorem provides_of {c : Conv K} {os : List (Opt K)} {T T' : List (String × (Val K → Prop))} (hG : List.Forall₂ Good os T')
    (hT : ∀ x, x ∈ T' ↔ x ∈ T) (hk : (T.map Prod.fst).Nodup) {params : List String} {ns : String → Option (Val K)}
    (h : getArgs c (helpOpt :: os) params = .ok ns) : Provides ns T := by
  have hP : OnePos (helpOpt :: os) := by
    intro p hp hn
    rcases List.mem_cons.1 hp with rfl | hp
    · cases hn
    · obtain ⟨x, _, hx⟩ := mem_left hG p hp
      exact hx.2.2.1 hn
  have hh : ∀ x ∈ T, ∃ o ∈ os, Good o x := fun x hx => mem_right hG x ((hT x).2 hx)
  refine ⟨fun x hx => ?_, fun d hd => ?_⟩
  · obtain ⟨o, ho, hg⟩ := hh x hx
    obtain ⟨v, hv, o', ho', hh', hd', h3⟩ := C127_typed c _ hP params ns h o (List.mem_cons_of_mem _ ho) hg.2.1
    have hdx : o.dest = x.1 := hg.1
    rcases List.mem_cons.1 ho' with rfl | ho''
    · cases hh'
    · obtain ⟨x', hx', hg'⟩ := mem_left hG o' ho''
      have e : x' = x := key_inj hk ((hT x').1 hx') hx (by rw [← hg'.1, hd', hdx])
      subst e
      refine ⟨v, by rw [← hdx]; exact hv, ?_⟩
      rcases h3 with ⟨rfl, h3⟩ | ⟨vals, h3⟩
      · exact hg'.2.2.2.1 h3
      · exact hg'.2.2.2.2 v (means_shape h3)
  · obtain ⟨o, ho, hh', rfl⟩ := ns_dest hP h d hd
    rcases List.mem_cons.1 ho with rfl | ho
    · cases hh'
    · obtain ⟨x, hx, hg⟩ := mem_left hG o ho
      rw [hg.1]
      exact List.mem_map.2 ⟨x, (hT x).1 hx, rfl⟩

/-! ## The tools -/

variable [Field K]

/-- What the tools read of the options for the interpolation. -/
def fcTable : List (String × (Val K → Prop)) :=
  [("filename", Str), ("asr", Maybe (OneOf ["reciprocal", "realspace"])), ("dipole_parameter", Flt),
   ("use_c", Maybe Boolean), ("n_threads", Maybe Int)]

/-- What the tools read of the options for plotting. -/
def plotTable : List (String × (Val K → Prop)) :=
  [("save_json", Maybe Str), ("save_to", Maybe Str), ("title", Str), ("xlabel", Maybe Str), ("ylabel", Maybe Str),
   ("style", Maybe StrsPlus), ("no_base_style", Boolean), ("font", Maybe Str), ("fontsize", Maybe Flt),
   ("figsize", Maybe (Flts 2)), ("figsize_unit", Str)]

/-- What the tools read of the options for the energy axis. -/
def energyTable : List (String × (Val K → Prop)) := [("e_min", Maybe Flt), ("e_max", Maybe Flt), ("energy_unit", Str)]

/-- What `euphonic-dispersion` reads. -/
def dispersionTable : List (String × (Val K → Prop)) :=
  fcTable ++ plotTable ++ [("linewidth", Maybe Flt)] ++ energyTable ++
    [("length_unit", Str), ("q_spacing", Flt), ("btol", Flt), ("reorder", Boolean)]

/-- What `euphonic-dos` reads. -/
def dosTable : List (String × (Val K → Prop)) :=
  fcTable ++ [("pdos", Maybe StrsStar),
    ("weighting", OneOf ["dos", "coherent-dos", "incoherent-dos", "coherent-plus-incoherent-dos"]),
    ("grid", Maybe (Ints 3)), ("grid_spacing", Flt), ("scale", Maybe Flt)] ++ plotTable ++ [("linewidth", Maybe Flt)] ++
    energyTable ++ [("ebins", Int), ("adaptive", Boolean), ("adaptive_method", OneOf ["reference", "fast"]),
    ("adaptive_error", Flt), ("adaptive_scale", Maybe Flt), ("adaptive_fit", OneOf ["cubic", "cheby-log"]),
    ("inst_broadening", Maybe FltsPlus), ("energy_broadening", Maybe FltsPlus),
    ("shape", Maybe (OneOf ["gauss", "lorentz"])), ("length_unit", Str)]

/-- What `euphonic-intensity-map` reads. -/
def intensityTable : List (String × (Val K → Prop)) :=
  fcTable ++ [("weighting", OneOf ["dos", "coherent"]), ("temperature", Maybe Flt),
    ("grid", Maybe (Ints 3)), ("grid_spacing", Flt), ("scale", Maybe Flt)] ++ plotTable ++ energyTable ++
    [("ebins", Int), ("energy_broadening", Maybe FltsPlus), ("shape", Maybe (OneOf ["gauss", "lorentz"])),
    ("length_unit", Str), ("q_spacing", Flt), ("q_broadening", Maybe (Flts 1)), ("vmin", Maybe Flt), ("vmax", Maybe Flt),
    ("cmap", Maybe Str), ("btol", Flt)]

/-- What `euphonic-powder-map` reads. -/
def powderTable : List (String × (Val K → Prop)) :=
  fcTable ++ [("pdos", Maybe (Strs 1)),
    ("weighting", OneOf ["dos", "coherent-dos", "incoherent-dos", "coherent-plus-incoherent-dos", "coherent"]),
    ("temperature", Maybe Flt), ("grid", Maybe (Ints 3)), ("grid_spacing", Flt), ("scale", Maybe Flt), ("npts", Int),
    ("npts_density", Maybe Int), ("npts_min", Int), ("npts_max", Int),
    ("sampling", OneOf ["golden", "sphere-projected-grid", "spherical-polar-grid", "spherical-polar-improved",
      "random-sphere"]), ("jitter", Boolean)] ++ plotTable ++ energyTable ++
    [("ebins", Int), ("energy_broadening", Maybe FltsPlus), ("shape", Maybe (OneOf ["gauss", "lorentz"])),
    ("length_unit", Str), ("q_spacing", Flt), ("q_broadening", Maybe FltsPlus), ("vmin", Maybe Flt), ("vmax", Maybe Flt),
    ("cmap", Maybe Str), ("use_brille", Boolean), ("brille_grid_type", OneOf ["trellis", "mesh", "nest"]),
    ("brille_npts", Int), ("brille_npts_density", Maybe Int), ("q_min", Flt), ("q_max", Flt), ("disable_widgets", Boolean),
    ("e_i", Maybe Flt), ("e_f", Maybe Flt), ("angle_range", Flts 2)]

/-- What `euphonic-optimise-dipole-parameter` reads; all but the first and the last four are passed on to
`ForceConstants.calculate_qpoint_phonon_modes`. -/
def dipoleTable : List (String × (Val K → Prop)) :=
  [("filename", Str), ("asr", Maybe (OneOf ["reciprocal", "realspace"])), ("use_c", Maybe Boolean),
   ("n_threads", Maybe Int), ("n", Int), ("dipole_parameter_min", Flt), ("dipole_parameter_max", Flt),
   ("dipole_parameter_step", Flt)]

/-- What `euphonic-brille-convergence` reads. -/
def brilleTable : List (String × (Val K → Prop)) :=
  fcTable ++ energyTable ++ [("ebins", Int), ("energy_broadening", Maybe FltsPlus),
    ("shape", Maybe (OneOf ["gauss", "lorentz"])), ("brille_grid_type", OneOf ["trellis", "mesh", "nest"]),
    ("npts", Int), ("use_brille", Maybe Str), ("brille_npts", IntsPlus), ("brille_npts_density", Maybe IntsPlus), ("n", Int)]

/-- What `euphonic-show-sampling` reads. -/
def samplingTable : List (String × (Val K → Prop)) :=
  [("npts", Int), ("sampling", OneOf ["golden-square", "regular-square", "recurrence-square", "golden-sphere",
    "sphere-from-square-grid", "spherical-polar-grid", "spherical-polar-improved", "random-sphere", "recurrence-cube"]),
   ("jitter", Boolean), ("save_plot", Maybe Str)]

local macro "good_default" : tactic => `(tactic| first
  | exact fun h => absurd rfl h
  | exact fun _ => Or.inl rfl
  | exact fun _ => ⟨_, rfl⟩
  | exact fun _ => ⟨_, by decide, rfl⟩
  | exact fun _ => Or.inr ⟨_, by decide, rfl⟩
  | exact fun _ => ⟨[5000], by simp, rfl⟩
  | exact fun _ => ⟨[0, 180], rfl, rfl⟩)

local macro "good_shape" : tactic => `(tactic| first
  | exact fun _ h => h
  | exact fun _ h => Or.inr h
  | exact fun _ h => Or.inr ⟨_, h⟩
  | exact fun _ h => ⟨_, h⟩
  | exact fun _ h => h.elim (fun h => Or.inr ⟨"reciprocal", by decide, h⟩) Or.inr)

local macro "good" : tactic => `(tactic|
  refine ⟨rfl, rfl, (fun h => by first | rfl | (cases h)), (by good_default), (by good_shape)⟩)

local macro "table" : tactic => `(tactic|
  (simp only [cliOpts, fileOpts, fcOpts, pdosOpts, weightingOpts, weightings, gridOpts, powderOpts, plottingOpts, energyOpts,
      broadeningOpts, qOpts, mapOpts, brilleOpts, dipoleOpts, whenever, has, List.contains_cons, List.contains_nil,
      Bool.or_false, Bool.or_true, Bool.true_or, Bool.false_or, Bool.not_true, Bool.not_false, Bool.and_true, Bool.true_and,
      Bool.and_false, Bool.false_and, if_true, beq_self_eq_true, String.reduceBEq, Bool.false_eq_true, if_false, ↓reduceIte,
      List.cons_append, List.nil_append, List.append_nil]
   repeat' (first | exact List.Forall₂.nil | (refine List.Forall₂.cons ?_ ?_; good))))

/-- The table of the interpolation with an entry for each of the two options `--use-c` and `--disable-c`. -/
def fcTable' : List (String × (Val K → Prop)) :=
  [("filename", Str), ("asr", Maybe (OneOf ["reciprocal", "realspace"])), ("dipole_parameter", Flt),
   ("use_c", Maybe Boolean), ("use_c", Maybe Boolean), ("n_threads", Maybe Int)]

theorem fc_mem (t : List (String × (Val K → Prop))) (x : String × (Val K → Prop)) :
    x ∈ fcTable' ++ t ↔ x ∈ fcTable ++ t := by
  simp only [fcTable', fcTable, List.mem_append, List.mem_cons]
  tauto

theorem dos_good : List.Forall₂ (Good (K := K)) (cliOpts ["read-fc", "read-modes", "mp-grid", "plotting", "ebins",
    "adaptive-broadening", "pdos-weighting", "scaling"]) (fcTable' ++ dosTable.drop 5) := by
  table

theorem dispersion_good : List.Forall₂ (Good (K := K))
    (cliOpts ["read-fc", "read-modes", "plotting", "q-e", "btol"] ++ [flagOpt ["--reorder"] "reorder"])
    (fcTable' ++ dispersionTable.drop 5) := by
  table

theorem intensity_good : List.Forall₂ (Good (K := K)) (cliOpts ["read-fc", "read-modes", "q-e", "map", "btol", "ebins",
    "ins-weighting", "plotting", "scaling"]) (fcTable' ++ intensityTable.drop 5) := by
  table

theorem powder_good : List.Forall₂ (Good (K := K)) (cliOpts ["read-fc", "pdos-weighting", "ins-weighting", "powder",
    "plotting", "ebins", "q-e", "map", "brille", "kinematic", "scaling"] ++ powderExtra)
    (fcTable' ++ powderTable.drop 5) := by
  unfold powderExtra
  table

theorem dipole_good : List.Forall₂ (Good (K := K)) (cliOpts ["read-fc", "dipole-parameter-optimisation"])
    ([("filename", Str), ("asr", Maybe (OneOf ["reciprocal", "realspace"])), ("use_c", Maybe Boolean),
      ("use_c", Maybe Boolean)] ++ dipoleTable.drop 3) := by
  table

/-- The options of `euphonic-brille-convergence` once conflicts are resolved. -/
def brilleOptsLeft : List (Opt K) :=
  fileOpts ["read-fc"] ++ fcOpts ["read-fc"] ++ energyOpts ["ebins"] ++ broadeningOpts ["ebins"] ++
    [{ names := ["--brille-grid-type"], dest := "brille_grid_type", default := ofStr "trellis",
       choices := some ["trellis", "mesh", "nest"] }] ++ brilleExtra

theorem brille_good : List.Forall₂ (Good (K := K)) brilleOptsLeft (fcTable' ++ brilleTable.drop 5) := by
  unfold brilleOptsLeft brilleExtra
  table

/-- The options of `euphonic-show-sampling`. -/
def samplingOpts : List (Opt K) :=
  [{ names := [], dest := "npts", typ := .int },
    { names := [], dest := "sampling", choices := some ["golden-square", "regular-square", "recurrence-square",
        "golden-sphere", "sphere-from-square-grid", "spherical-polar-grid", "spherical-polar-improved", "random-sphere",
        "recurrence-cube"] },
    flagOpt ["--jitter"] "jitter",
    strOpt ["-s", "--save-plot"] "save_plot"]

theorem sampling_good : List.Forall₂ (Good (K := K)) samplingOpts samplingTable := by
  unfold samplingOpts
  repeat' (first | exact List.Forall₂.nil | (refine List.Forall₂.cons ?_ ?_; good))

/-- An option string that starts with a dash and is neither a number nor `--`. -/
def dashOk (n : String) : Bool :=
  match n.toList with
  | '-' :: x :: _ => x ≠ '.' && !x.isDigit && n ≠ "--"
  | _ => false

theorem dashOk_spec {n : String} (h : dashOk n = true) :
    ∃ x r, n.toList = '-' :: x :: r ∧ x ≠ '.' ∧ x.isDigit = false ∧ n ≠ "--" := by
  unfold dashOk at h
  split at h
  · rename_i x r hn
    simp only [Bool.and_eq_true, decide_eq_true_eq, Bool.not_eq_true'] at h
    exact ⟨x, r, hn, h.1.1, h.1.2, h.2⟩
  · cases h

/-- Options strings that Euphonic's tools add. -/
def extraNames : List String := ["--reorder", "--q-min", "--q-max", "--no-widgets", "--e-incident", "--e-i", "--e-final",
  "--e-f", "--angle-range"]

theorem tools_names : (firstNames ++ powderNames ++ otherNames ++ extraNames).Nodup ∧
    ∀ n ∈ firstNames ++ powderNames ++ otherNames ++ extraNames ++ dipoleNames, dashOk n = true := by
  decide +kernel

theorem onePos_of {os : List (Opt K)} {T : List (String × (Val K → Prop))} (h : List.Forall₂ Good os T) :
    OnePos (helpOpt :: os) := by
  intro p hp hn
  rcases List.mem_cons.1 hp with rfl | hp
  · cases hn
  · obtain ⟨x, _, hx⟩ := mem_left h p hp
    exact hx.2.2.1 hn

theorem proper_of {os : List (Opt K)} {T : List (String × (Val K → Prop))} (h : List.Forall₂ Good os T)
    (hn : (namesOf (helpOpt :: os)).Nodup) (hd : ∀ n ∈ namesOf (helpOpt :: os), dashOk n = true) : Proper (helpOpt :: os) :=
  ⟨hn, fun n hm => dashOk_spec (hd n hm), onePos_of h⟩

theorem cli_sub (F : List String) : ∀ n ∈ namesOf (K := K) (helpOpt :: cliOpts F),
    n ∈ firstNames ++ powderNames ++ otherNames ++ dipoleNames := by
  intro n hn
  have := (names_all F).subset hn
  simp only [List.mem_append] at this ⊢
  rcases this with ((h | h) | h) | h
  · exact Or.inl (Or.inl (Or.inl h))
  · split at h
    · exact Or.inl (Or.inl (Or.inr h))
    · cases h
  · exact Or.inl (Or.inr h)
  · split at h
    · exact Or.inr h
    · cases h

theorem cli_dash (F : List String) : ∀ n ∈ namesOf (K := K) (helpOpt :: cliOpts F), dashOk n = true := by
  intro n hn
  refine tools_names.2 n ?_
  have := cli_sub F n hn
  simp only [List.mem_append] at this ⊢
  tauto

theorem getCliParser_eq (F : List String) (h : ¬(has F "powder" = true ∧ has F "dipole-parameter-optimisation" = true))
    (hr : has F "read-fc" = true) : getCliParser (K := K) F = .ok (helpOpt :: cliOpts F) := by
  unfold getCliParser
  rw [hr]
  simp only [Bool.not_true, Bool.and_false, Bool.false_eq_true, if_false]
  exact addAll_ok [helpOpt] (cliOpts F) (cli_nodup F h)

theorem dos_keys : (((dosTable (K := K)).map Prod.fst)).Nodup := by
  show List.Nodup
    ["filename", "asr", "dipole_parameter", "use_c", "n_threads", "pdos", "weighting", "grid", "grid_spacing",
    "scale", "save_json", "save_to", "title", "xlabel", "ylabel", "style", "no_base_style", "font",
    "fontsize", "figsize", "figsize_unit", "linewidth", "e_min", "e_max", "energy_unit", "ebins", "adaptive",
    "adaptive_method", "adaptive_error", "adaptive_scale", "adaptive_fit", "inst_broadening",
    "energy_broadening", "shape", "length_unit"]
  decide +kernel

theorem dispersion_keys : (((dispersionTable (K := K)).map Prod.fst)).Nodup := by
  show List.Nodup
    ["filename", "asr", "dipole_parameter", "use_c", "n_threads", "save_json", "save_to", "title", "xlabel",
    "ylabel", "style", "no_base_style", "font", "fontsize", "figsize", "figsize_unit", "linewidth", "e_min",
    "e_max", "energy_unit", "length_unit", "q_spacing", "btol", "reorder"]
  decide +kernel

theorem intensity_keys : (((intensityTable (K := K)).map Prod.fst)).Nodup := by
  show List.Nodup
    ["filename", "asr", "dipole_parameter", "use_c", "n_threads", "weighting", "temperature", "grid",
    "grid_spacing", "scale", "save_json", "save_to", "title", "xlabel", "ylabel", "style", "no_base_style",
    "font", "fontsize", "figsize", "figsize_unit", "e_min", "e_max", "energy_unit", "ebins",
    "energy_broadening", "shape", "length_unit", "q_spacing", "q_broadening", "vmin", "vmax", "cmap", "btol"]
  decide +kernel

theorem powder_keys : (((powderTable (K := K)).map Prod.fst)).Nodup := by
  show List.Nodup
    ["filename", "asr", "dipole_parameter", "use_c", "n_threads", "pdos", "weighting", "temperature", "grid",
    "grid_spacing", "scale", "npts", "npts_density", "npts_min", "npts_max", "sampling", "jitter",
    "save_json", "save_to", "title", "xlabel", "ylabel", "style", "no_base_style", "font", "fontsize",
    "figsize", "figsize_unit", "e_min", "e_max", "energy_unit", "ebins", "energy_broadening", "shape",
    "length_unit", "q_spacing", "q_broadening", "vmin", "vmax", "cmap", "use_brille", "brille_grid_type",
    "brille_npts", "brille_npts_density", "q_min", "q_max", "disable_widgets", "e_i", "e_f", "angle_range"]
  decide +kernel

theorem dipole_keys : (((dipoleTable (K := K)).map Prod.fst)).Nodup := by
  show List.Nodup
    ["filename", "asr", "use_c", "n_threads", "n", "dipole_parameter_min", "dipole_parameter_max",
    "dipole_parameter_step"]
  decide +kernel

theorem brille_keys : (((brilleTable (K := K)).map Prod.fst)).Nodup := by
  show List.Nodup
    ["filename", "asr", "dipole_parameter", "use_c", "n_threads", "e_min", "e_max", "energy_unit", "ebins",
    "energy_broadening", "shape", "brille_grid_type", "npts", "use_brille", "brille_npts",
    "brille_npts_density", "n"]
  decide +kernel

theorem sampling_keys : (((samplingTable (K := K)).map Prod.fst)).Nodup := by
  show List.Nodup
    ["npts", "sampling", "jitter", "save_plot"]
  decide +kernel

/-- **C127.** `euphonic-dos`: the parser can be set up, and any command line that it accepts gives the attributes
that the tool reads, with values of the right kind. -/
theorem C127_dos (c : Conv K) : ∃ P, dosParser (K := K) = .ok P ∧ Proper P ∧
    ∀ params ns, getArgs c P params = .ok ns → Provides ns dosTable := by
  exact ⟨_, getCliParser_eq _ (by decide) (by decide), proper_of dos_good (cli_nodup _ (by decide)) (cli_dash _),
    fun _ _ h => provides_of dos_good (fc_mem _) dos_keys h⟩

/-- **C127.** `euphonic-intensity-map`: the parser can be set up, and any command line that it accepts gives the attributes
that the tool reads, with values of the right kind. -/
theorem C127_intensity (c : Conv K) : ∃ P, intensityParser (K := K) = .ok P ∧ Proper P ∧
    ∀ params ns, getArgs c P params = .ok ns → Provides ns intensityTable := by
  exact ⟨_, getCliParser_eq _ (by decide) (by decide), proper_of intensity_good (cli_nodup _ (by decide)) (cli_dash _),
    fun _ _ h => provides_of intensity_good (fc_mem _) intensity_keys h⟩

/-- **C127.** `euphonic-optimise-dipole-parameter`: the parser can be set up, and any command line that it accepts gives the attributes
that the tool reads, with values of the right kind. -/
theorem C127_dipole (c : Conv K) : ∃ P, dipoleParser (K := K) = .ok P ∧ Proper P ∧
    ∀ params ns, getArgs c P params = .ok ns → Provides ns dipoleTable := by
  refine ⟨_, getCliParser_eq _ (by decide) (by decide), proper_of dipole_good (cli_nodup _ (by decide)) (cli_dash _),
    fun _ _ h => provides_of dipole_good (fun x => ?_) dipole_keys h⟩
  simp only [dipoleTable, List.drop_succ_cons, List.drop_zero, List.mem_append, List.mem_cons]
  tauto

theorem disp_nodup : (namesOf (K := K) (helpOpt :: (cliOpts ["read-fc", "read-modes", "plotting", "q-e", "btol"] ++
    [flagOpt ["--reorder"] "reorder"]))).Nodup := by
  have e : ∀ a b : List (Opt K), helpOpt :: (a ++ b) = (helpOpt :: a) ++ b := fun _ _ => rfl
  rw [e, names_append]
  refine List.Sublist.nodup ((names_all _).append (List.Sublist.refl _)) ?_
  rw [if_neg (by decide), if_neg (by decide)]
  have e' : namesOf (K := K) [flagOpt ["--reorder"] "reorder"] = ["--reorder"] := rfl
  rw [e']
  decide +kernel

/-- **C127.** `euphonic-dispersion`: the parser can be set up, and any command line that it accepts gives the attributes that
the tool reads, with values of the right kind. -/
theorem C127_dispersion (c : Conv K) : ∃ P, dispersionParser (K := K) = .ok P ∧ Proper P ∧
    ∀ params ns, getArgs c P params = .ok ns → Provides ns dispersionTable := by
  refine ⟨_, ?_, proper_of dispersion_good disp_nodup ?_,
    fun _ _ h => provides_of dispersion_good (fc_mem _) dispersion_keys h⟩
  · unfold dispersionParser
    rw [getCliParser_eq _ (by decide) (by decide)]
    have h := addAll_ok (helpOpt :: cliOpts ["read-fc", "read-modes", "plotting", "q-e", "btol"])
      [flagOpt ["--reorder"] "reorder"] (disp_nodup (K := K))
    rw [List.foldlM_cons] at h
    simp only [List.foldlM_nil, bind_pure, List.cons_append] at h
    simp only [Except.bind]
    exact h
  · intro n hn
    have e : ∀ a b : List (Opt K), helpOpt :: (a ++ b) = (helpOpt :: a) ++ b := fun _ _ => rfl
    rw [e, names_append, List.mem_append] at hn
    rcases hn with hn | hn
    · exact cli_dash _ n hn
    · exact tools_names.2 n (by
        have hn : n ∈ ["--reorder"] := hn
        rw [List.mem_singleton] at hn
        subst hn
        decide +kernel)

theorem powder_nodup : (namesOf (K := K) (helpOpt :: (cliOpts ["read-fc", "pdos-weighting", "ins-weighting", "powder",
    "plotting", "ebins", "q-e", "map", "brille", "kinematic", "scaling"] ++ powderExtra))).Nodup := by
  have e : ∀ a b : List (Opt K), helpOpt :: (a ++ b) = (helpOpt :: a) ++ b := fun _ _ => rfl
  have e' : namesOf (K := K) powderExtra = extraNames.drop 1 := rfl
  have h := names_all (K := K) ["read-fc", "pdos-weighting", "ins-weighting", "powder", "plotting", "ebins", "q-e", "map",
    "brille", "kinematic", "scaling"]
  rw [if_pos (by decide), if_neg (by decide)] at h
  rw [e, names_append, e']
  exact (h.append (List.Sublist.refl _)).nodup (by decide +kernel)

/-- **C127.** `euphonic-powder-map`: the parser can be set up, and any command line that it accepts gives the attributes
that the tool reads, with values of the right kind. -/
theorem C127_powder (c : Conv K) : ∃ P, powderParser (K := K) = .ok P ∧ Proper P ∧
    ∀ params ns, getArgs c P params = .ok ns → Provides ns powderTable := by
  refine ⟨_, ?_, proper_of powder_good powder_nodup ?_, fun _ _ h => provides_of powder_good (fc_mem _) powder_keys h⟩
  · unfold powderParser
    rw [getCliParser_eq _ (by decide) (by decide)]
    exact addAll_ok (helpOpt :: cliOpts _) powderExtra powder_nodup
  · intro n hn
    have e : ∀ a b : List (Opt K), helpOpt :: (a ++ b) = (helpOpt :: a) ++ b := fun _ _ => rfl
    rw [e, names_append, List.mem_append] at hn
    rcases hn with hn | hn
    · exact cli_dash _ n hn
    · have hn : n ∈ extraNames.drop 1 := hn
      exact tools_names.2 n (List.mem_append_left _ (List.mem_append_right _ (List.mem_of_mem_drop hn)))

theorem without_disjoint (l : List String) (p : Opt K) (h : ∀ n ∈ p.names, n ∉ l) : without l p = some p := by
  unfold without
  have h1 : (p.names.any fun s => l.contains s) = false := by
    simp only [List.any_eq_false, List.contains_eq_mem, decide_eq_true_eq]
    exact h
  have h2 : (p.names.filter fun s => !l.contains s) = p.names := by
    rw [List.filter_eq_self]
    intro n hn
    simpa using h n hn
  rw [h1, h2]
  rfl

theorem resolveAll_ok (P os : List (Opt K)) (h : (namesOf (P ++ os)).Nodup) : os.foldl addResolve P = P ++ os := by
  induction os generalizing P with
  | nil => simp
  | cons o os ih =>
    have e : P ++ o :: os = (P ++ [o]) ++ os := by simp
    have h1 : addResolve P o = P ++ [o] := by
      unfold addResolve
      congr 1
      rw [List.filterMap_congr (g := some), List.filterMap_some]
      intro p hp
      refine without_disjoint _ _ fun n hn hn' => ?_
      unfold namesOf at h
      rw [List.flatMap_append, List.flatMap_cons, List.nodup_append] at h
      exact h.2.2 n (List.mem_flatMap.2 ⟨p, hp, hn⟩) n (List.mem_append_left _ hn') rfl
    rw [List.foldl_cons, h1, e]
    exact ih (P ++ [o]) (by rw [← e]; exact h)

theorem brille_eq : brilleParser (K := K) = .ok (helpOpt :: brilleOptsLeft) := by
  unfold brilleParser
  rw [List.foldl_append, resolveAll_ok [helpOpt] (cliOpts ["read-fc", "brille", "ebins"]) (cli_nodup _ (by decide))]
  simp [brilleExtra, brilleOptsLeft, addResolve, without, helpOpt, strOpt, fltOpt, flagOpt,
    cliOpts, fileOpts, fcOpts, pdosOpts, weightingOpts, gridOpts, powderOpts, plottingOpts, energyOpts,
      broadeningOpts, qOpts, mapOpts, brilleOpts, dipoleOpts, whenever, has]

/-- **C127.** `euphonic-brille-convergence`: the parser can be set up, and any command line that it accepts gives the attributes
that the tool reads, with values of the right kind. -/
theorem C127_brille (c : Conv K) : ∃ P, brilleParser (K := K) = .ok P ∧ Proper P ∧
    ∀ params ns, getArgs c P params = .ok ns → Provides ns brilleTable := by
  have e : namesOf (K := K) (helpOpt :: brilleOptsLeft) = ["-h", "--help", "--asr", "--dipole-parameter", "--use-c",
      "--disable-c", "--n-threads", "--e-min", "--e-max", "--energy-unit", "-u", "--ebins", "--energy-broadening", "--eb",
      "--shape", "--brille-grid-type", "--npts", "--use-brille", "--brille-npts", "--brille-npts-density", "-n"] := by
    simp [namesOf, brilleExtra, brilleOptsLeft, helpOpt, strOpt, fltOpt, fileOpts, fcOpts, energyOpts, broadeningOpts,
      whenever, has]
  refine ⟨helpOpt :: brilleOptsLeft, brille_eq, proper_of brille_good ?_ ?_,
    fun _ _ h => provides_of brille_good (fc_mem _) brille_keys h⟩
  · rw [e]
    decide +kernel
  · rw [e]
    decide +kernel

theorem sampling_proper : Proper (K := K) (helpOpt :: samplingOpts) := by
  have hn : (namesOf (K := K) (helpOpt :: samplingOpts)).Nodup := by
    show List.Nodup ["-h", "--help", "--jitter", "-s", "--save-plot"]
    decide +kernel
  refine proper_of sampling_good hn ?_
  show ∀ n ∈ ["-h", "--help", "--jitter", "-s", "--save-plot"], dashOk n = true
  decide +kernel

/-- **C127.** `euphonic-show-sampling`: the parser can be set up, and any command line that it accepts gives the attributes
that the tool reads, with values of the right kind. -/
theorem C127_sampling (c : Conv K) : ∃ P, samplingParser (K := K) = .ok P ∧ Proper P ∧
    ∀ params ns, getArgs c P params = .ok ns → Provides ns samplingTable := by
  exact ⟨_, addAll_ok [helpOpt] samplingOpts sampling_proper.nodup, sampling_proper,
    fun _ _ h => provides_of sampling_good (fun _ => Iff.rfl) sampling_keys h⟩

/-! ## Calls with the arguments -/

/-- The parameters of `calculate_optimum_dipole_parameter` (euphonic/cli/optimise_dipole_parameter.py:29-37). -/
def dipoleParams : List String :=
  ["filename", "dipole_parameter_min", "dipole_parameter_max", "dipole_parameter_step", "n", "print_to_terminal"]

/-- The parameters of `check_brille_settings` (euphonic/cli/brille_convergence.py:27-42). -/
def brilleParams : List String :=
  ["filename", "npts", "use_brille", "brille_grid_type", "brille_npts", "brille_npts_density", "n", "energy_broadening",
   "ebins", "e_min", "e_max", "energy_unit", "shape"]

theorem rest_of {ns : String → Option (Val K)} {T : List (String × (Val K → Prop))} (h : Provides ns T)
    (named rest : List String) (hr : (T.map Prod.fst).filter (fun d => !named.contains d) = rest) (d : String) :
    (restKwargs named ns d).isSome ↔ d ∈ rest := by
  subst hr
  unfold restKwargs
  rw [List.mem_filter]
  split
  · rename_i hc
    rw [hc]
    simp
  · rename_i hc
    simp only [Bool.not_eq_true] at hc
    constructor
    · intro hs
      exact ⟨h.2 d hs, by rw [hc]; rfl⟩
    · rintro ⟨hm, -⟩
      obtain ⟨x, hx, rfl⟩ := List.mem_map.1 hm
      obtain ⟨v, hv, -⟩ := h.1 x hx
      simp [hv]

/-- **C127.** `euphonic-optimise-dipole-parameter` passes on to `calculate_qpoint_phonon_modes` exactly the arguments
`asr`, `use_c` and `n_threads`: never `dipole_parameter` or `reduce_qpts`, which it sets itself. -/
theorem C127_dipole_call (c : Conv K) : ∃ P, dipoleParser (K := K) = .ok P ∧ ∀ params ns, getArgs c P params = .ok ns →
    ∀ d, (restKwargs dipoleParams ns d).isSome ↔ d = "asr" ∨ d = "use_c" ∨ d = "n_threads" := by
  obtain ⟨P, h1, -, h2⟩ := C127_dipole c
  refine ⟨P, h1, fun params ns h d => ?_⟩
  rw [rest_of (h2 params ns h) dipoleParams ["asr", "use_c", "n_threads"] (by
    show List.filter _ ["filename", "asr", "use_c", "n_threads", "n", "dipole_parameter_min", "dipole_parameter_max",
      "dipole_parameter_step"] = _
    decide +kernel)]
  simp

/-- **C127.** `euphonic-brille-convergence` passes on exactly `asr`, `dipole_parameter`, `use_c` and `n_threads`. -/
theorem C127_brille_call (c : Conv K) : ∃ P, brilleParser (K := K) = .ok P ∧ ∀ params ns, getArgs c P params = .ok ns →
    ∀ d, (restKwargs brilleParams ns d).isSome ↔ d = "asr" ∨ d = "dipole_parameter" ∨ d = "use_c" ∨ d = "n_threads" := by
  obtain ⟨P, h1, -, h2⟩ := C127_brille c
  refine ⟨P, h1, fun params ns h d => ?_⟩
  rw [rest_of (h2 params ns h) brilleParams ["asr", "dipole_parameter", "use_c", "n_threads"] (by
    show List.filter _ ["filename", "asr", "dipole_parameter", "use_c", "n_threads", "e_min", "e_max", "energy_unit", "ebins",
      "energy_broadening", "shape", "brille_grid_type", "npts", "use_brille", "brille_npts", "brille_npts_density", "n"] = _
    decide +kernel)]
  simp

/-- What the interpolation and the plot of a tool get. -/
def GetsKwargs (ns : String → Option (Val K)) : Prop :=
  (∃ a d u n, calcModesKwargs ns = some [("asr", a), ("dipole_parameter", d), ("use_c", u), ("n_threads", n)] ∧
    Maybe (OneOf ["reciprocal", "realspace"]) a ∧ Flt d ∧ Maybe Boolean u ∧ Maybe Int n) ∧
  ∀ xd yd, ∃ t x y, plotLabelKwargs ns xd yd = some (t, x, y) ∧ Str t ∧ Str x ∧ Str y ∧
    (ns "xlabel" = some .none → x = ofStr xd) ∧ (ns "ylabel" = some .none → y = ofStr yd)

theorem label_str {v : Val K} (h : Maybe Str v) (d : String) : Str (labelOr v d) ∧ (v = .none → labelOr v d = ofStr d) := by
  rcases h with rfl | ⟨s, rfl⟩
  · exact ⟨⟨d, rfl⟩, fun _ => rfl⟩
  · exact ⟨⟨s, rfl⟩, fun h => by cases h⟩

theorem gets_of {ns : String → Option (Val K)} {T : List (String × (Val K → Prop))} (h : Provides ns T)
    (h1 : ∀ x ∈ fcTable (K := K), x ∈ T) (h2 : ∀ x ∈ plotTable (K := K), x ∈ T) : GetsKwargs ns := by
  constructor
  · obtain ⟨a, ha, ha'⟩ := h.1 _ (h1 ("asr", Maybe (OneOf ["reciprocal", "realspace"])) (by simp [fcTable]))
    obtain ⟨d, hd, hd'⟩ := h.1 _ (h1 ("dipole_parameter", Flt) (by simp [fcTable]))
    obtain ⟨u, hu, hu'⟩ := h.1 _ (h1 ("use_c", Maybe Boolean) (by simp [fcTable]))
    obtain ⟨n, hn, hn'⟩ := h.1 _ (h1 ("n_threads", Maybe Int) (by simp [fcTable]))
    dsimp only at ha hd hu hn
    refine ⟨a, d, u, n, ?_, ha', hd', hu', hn'⟩
    simp [calcModesKwargs, ha, hd, hu, hn]
  · intro xd yd
    obtain ⟨t, ht, ht'⟩ := h.1 _ (h2 ("title", Str) (by simp [plotTable]))
    obtain ⟨x, hx, hx'⟩ := h.1 _ (h2 ("xlabel", Maybe Str) (by simp [plotTable]))
    obtain ⟨y, hy, hy'⟩ := h.1 _ (h2 ("ylabel", Maybe Str) (by simp [plotTable]))
    dsimp only at ht hx hy
    refine ⟨t, labelOr x xd, labelOr y yd, ?_, ht', (label_str hx' xd).1, (label_str hy' yd).1, ?_, ?_⟩
    · simp [plotLabelKwargs, ht, hx, hy]
    · intro e
      exact (label_str hx' xd).2 (by rw [hx] at e; exact Option.some.inj e)
    · intro e
      exact (label_str hy' yd).2 (by rw [hy] at e; exact Option.some.inj e)

/-- **C127.** In the four tools that plot, the arguments of the interpolation and the labels of the plot can be taken from
any accepted command line. -/
theorem C127_kwargs (c : Conv K) :
    (∃ P, dispersionParser (K := K) = .ok P ∧ ∀ params ns, getArgs c P params = .ok ns → GetsKwargs ns) ∧
    (∃ P, dosParser (K := K) = .ok P ∧ ∀ params ns, getArgs c P params = .ok ns → GetsKwargs ns) ∧
    (∃ P, intensityParser (K := K) = .ok P ∧ ∀ params ns, getArgs c P params = .ok ns → GetsKwargs ns) ∧
    (∃ P, powderParser (K := K) = .ok P ∧ ∀ params ns, getArgs c P params = .ok ns → GetsKwargs ns) := by
  refine ⟨?_, ?_, ?_, ?_⟩
  · obtain ⟨P, e, -, h⟩ := C127_dispersion c
    exact ⟨P, e, fun params ns hn => gets_of (h params ns hn)
      (fun x hx => by simp only [dispersionTable, List.mem_append, hx, true_or])
      (fun x hx => by simp only [dispersionTable, List.mem_append, hx, true_or, or_true])⟩
  · obtain ⟨P, e, -, h⟩ := C127_dos c
    exact ⟨P, e, fun params ns hn => gets_of (h params ns hn)
      (fun x hx => by simp only [dosTable, List.mem_append, hx, true_or])
      (fun x hx => by simp only [dosTable, List.mem_append, hx, true_or, or_true])⟩
  · obtain ⟨P, e, -, h⟩ := C127_intensity c
    exact ⟨P, e, fun params ns hn => gets_of (h params ns hn)
      (fun x hx => by simp only [intensityTable, List.mem_append, hx, true_or])
      (fun x hx => by simp only [intensityTable, List.mem_append, hx, true_or, or_true])⟩
  · obtain ⟨P, e, -, h⟩ := C127_powder c
    exact ⟨P, e, fun params ns hn => gets_of (h params ns hn)
      (fun x hx => by simp only [powderTable, List.mem_append, hx, true_or])
      (fun x hx => by simp only [powderTable, List.mem_append, hx, true_or, or_true])⟩

/-! ## Examples -/

/-- The digits of a natural number, for the examples. -/
def readDigits : List Char → Nat → Option Nat
  | [], n => some n
  | c :: l, n => if c.isDigit then readDigits l (10 * n + (c.toNat - 48)) else none

/-- An integer, for the examples. -/
def readInt (s : String) : Option ℤ :=
  match s.toList with
  | [] => none
  | '-' :: l => (readDigits l 0).map fun n => -(n : ℤ)
  | l => (readDigits l 0).map fun n => (n : ℤ)

/-- `int()` and `float()` for the examples: integers only. -/
def exampleConv : Conv ℚ := ⟨readInt, fun s => (readInt s).map fun z => (z : ℚ)⟩

/-- Some attributes that a command line gives, if the parser can be set up and accepts it. -/
def attrs (P : Except BuildErr (List (Opt ℚ))) (params ds : List String) : Option (List (Option (Val ℚ))) :=
  match P with
  | .error _ => none
  | .ok P => match getArgs exampleConv P params with
    | .error _ => none
    | .ok ns => some (ds.map ns)

-- Accepted command lines: abbreviations, attached values, several values, `--`.
example : attrs dosParser ["--grid", "2", "3", "4", "quartz.json", "--ebins=50", "--adaptive-m", "fast", "-wdos", "--pdos", "Si"]
    ["filename", "grid", "ebins", "adaptive_method", "weighting", "pdos", "use_c", "grid_spacing"] =
    some [some (ofStr "quartz.json"), some (.list [.int 2, .int 3, .int 4]), some (ofInt 50), some (ofStr "fast"),
      some (ofStr "dos"), some (.list [.str "Si"]), some .none, some (ofFlt (1 / 10))] := by decide +kernel

example : attrs powderParser ["--asr", "--use-c", "-n", "10", "--e-i", "5", "--angle-range", "-3", "90", "--", "-f.json"]
    ["filename", "asr", "use_c", "npts", "e_i", "e_f", "angle_range"] =
    some [some (ofStr "-f.json"), some (ofStr "reciprocal"), some (.bool true), some (ofInt 10), some (ofFlt 5), some .none,
      some (.list [.flt (-3), .flt 90])] := by decide +kernel

example : attrs brilleParser ["-n2", "--brille-npts", "10", "20", "f.json"] ["brille_npts", "n", "npts"] = none ∧
    attrs brilleParser ["f.json", "--brille-npts", "10", "20", "-n2"] ["brille_npts", "n", "npts"] =
      some [some (.list [.int 10, .int 20]), some (ofInt 2), some (ofInt 1000)] := by decide +kernel

-- Options that exclude each other.
example : attrs dosParser ["f.json", "--use-c", "--disable-c"] [] = none ∧
    attrs dosParser ["f.json", "--grid", "1", "1", "1", "--grid-spacing", "1"] [] = none ∧
    attrs powderParser ["f.json", "--e-i", "1", "--e-f", "1"] [] = none ∧
    attrs powderParser ["f.json", "--e-i", "1"] [] = some [] := by decide +kernel

-- Two sets of features: a parser cannot be set up for the first one.
example : (∀ P, getCliParser (K := ℚ) ["read-fc", "powder", "dipole-parameter-optimisation"] ≠ .ok P) ∧
    ∃ P, getCliParser (K := ℚ) ["read-fc", "powder", "no such feature"] = .ok P := by
  constructor
  · intro P h
    exact ((C127_build _).1 ⟨P, h⟩).2 (by decide)
  · exact (C127_build _).2 (by decide)

end Euphonic.Args
