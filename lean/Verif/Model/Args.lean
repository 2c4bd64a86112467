import Mathlib.Algebra.Field.Defs
import Mathlib.Data.Int.Notation

/-!
# Model of the command-line parsers (euphonic/cli/utils.py:142-165, 451-886 and `get_parser` of the tools)

`argparse` belongs to the standard library.  The first part models what `ArgumentParser.add_argument` and
`ArgumentParser.parse_args` of CPython 3.12 do for the kinds of options that Euphonic defines: options that store values
(`nargs` absent, a number, `'?'`, `'*'`, `'+'`) or a constant, and positional arguments with one value.  An abbreviated
option, `--option=value`, `-nVALUE`, `--` and negative numbers are treated as there.  Simplified: help texts and messages
are left out; `-h` with further letters attached prints the help; a trailing newline or digits outside ASCII in a negative
number are not considered.  `int()` and `float()` are parameters.
-/

set_option autoImplicit false

namespace Euphonic.Args

/-- `nargs` (used in euphonic/cli/utils.py:541-884): absent, a number, `'?'`, `'*'`, `'+'`, or 0 for `store_true` and
`store_false`. -/
inductive NArgs where
  | one
  | num (k : Nat)
  | opt
  | star
  | plus
  | flag
  deriving DecidableEq, Repr

/-- `type` (used in euphonic/cli/utils.py:538-884). -/
inductive Typ where
  | str
  | int
  | flt
  deriving DecidableEq, Repr

/-- A converted value (argparse, called at euphonic/cli/utils.py:161-165). -/
inductive Scalar (K : Type) where
  | str (s : String)
  | int (z : ℤ)
  | flt (x : K)
  deriving DecidableEq

/-- The value of an attribute of the namespace (argparse, called at euphonic/cli/utils.py:161-165). -/
inductive Val (K : Type) where
  | none
  | bool (b : Bool)
  | one (s : Scalar K)
  | list (l : List (Scalar K))
  deriving DecidableEq

/-- An argument of a parser: option strings (none for a positional argument), `dest`, `nargs`, `type`, `choices`, `default`,
`const`, the mutually exclusive group it is in, and whether it is `-h` (euphonic/cli/utils.py:538-884). -/
structure Opt (K : Type) where
  names : List String
  dest : String
  nargs : NArgs := .one
  typ : Typ := .str
  choices : Option (List String) := none
  default : Val K := .none
  const : Val K := .none
  group : Option Nat := none
  help : Bool := false
  deriving DecidableEq

variable {K : Type}

/-- Errors when a parser is set up: `argparse.ArgumentError` for conflicting option strings, and the `ValueError` of
euphonic/cli/utils.py:537. -/
inductive BuildErr where
  | conflict
  | value
  deriving DecidableEq, Repr

/-- How `parse_args` may end the program (euphonic/cli/utils.py:161-164): a message about the usage (exit status 2), or the
help text (exit status 0). -/
inductive Stop where
  | usage
  | help
  deriving DecidableEq, Repr

/-- Option strings of a list of arguments (argparse, called at euphonic/cli/utils.py:161-165). -/
def namesOf (P : List (Opt K)) : List String := P.flatMap Opt.names

/-- `add_argument` with `conflict_handler='error'`, the default (euphonic/cli/utils.py:452, 500-502). -/
def addOpt (P : List (Opt K)) (o : Opt K) : Except BuildErr (List (Opt K)) :=
  if o.names.any fun s => (namesOf P).contains s then .error .conflict else .ok (P ++ [o])

/-- An option without the option strings `l`; it vanishes if it had one of them and no others
(argparse, called at euphonic/cli/utils.py:161-165). -/
def without (l : List String) (p : Opt K) : Option (Opt K) :=
  let left := p.names.filter fun s => !l.contains s
  if p.names.any (fun s => l.contains s) && left.isEmpty then none else some { p with names := left }

/-- `add_argument` with `conflict_handler='resolve'` (euphonic/cli/brille_convergence.py:208-210). -/
def addResolve (P : List (Opt K)) (o : Opt K) : List (Opt K) := P.filterMap (without o.names) ++ [o]

/-- `-h`, which every `ArgumentParser` has (euphonic/cli/utils.py:500). -/
def helpOpt : Opt K := { names := ["-h", "--help"], dest := "help", nargs := .flag, help := true }

/-- Adding arguments one after the other (argparse, called at euphonic/cli/utils.py:161-165). -/
def build (os : List (Opt K)) : Except BuildErr (List (Opt K)) := os.foldlM addOpt [helpOpt]

/-! ## Reading the command line -/

/-- An argument string that is an option: the option, the string it was found by, what follows `=` or is attached to a
single letter (with `true` if there was an `=`), or an option that does not exist
(argparse, called at euphonic/cli/utils.py:161-165). -/
inductive OTok (K : Type) where
  | opt (o : Opt K) (name : String) (explicit : Option (Bool × String))
  | unknown

/-- The option with an option string (argparse, called at euphonic/cli/utils.py:161-165). -/
def lookup (P : List (Opt K)) (s : String) : Option (Opt K) := P.find? fun o => o.names.contains s

/-- `s.partition('=')`, if there is a `=` (argparse, called at euphonic/cli/utils.py:161-165). -/
def partitionEq (s : String) : Option (String × String) :=
  match s.toList.dropWhile (· ≠ '=') with
  | [] => none
  | _ :: r => some (String.ofList (s.toList.takeWhile (· ≠ '=')), String.ofList r)

/-- `startswith` (argparse, called at euphonic/cli/utils.py:161-165). -/
def starts (p s : String) : Bool := p.toList.isPrefixOf s.toList

/-- `_get_option_tuples`: options of which the string is an abbreviation, or to which a value is attached
(argparse, called at euphonic/cli/utils.py:161-165). -/
def optionTuples (P : List (Opt K)) (s : String) : List (OTok K) :=
  let all := P.flatMap fun o => o.names.map fun n => (n, o)
  if starts "--" s then
    let (p, e) : String × Option (Bool × String) := match partitionEq s with
      | some (a, b) => (a, some (true, b))
      | none => (s, none)
    (all.filter fun x => starts p x.1).map fun x => .opt x.2 x.1 e
  else
    all.filterMap fun x =>
      if x.1.toList = s.toList.take 2 then some (.opt x.2 x.1 (some (false, String.ofList (s.toList.drop 2))))
      else if starts s x.1 then some (.opt x.2 x.1 none) else none

/-- `^-\d+$|^-\d*\.\d+$`, without the dash (argparse, called at euphonic/cli/utils.py:161-165). -/
def isNumber (l : List Char) : Bool :=
  let r := l.dropWhile Char.isDigit
  (r.isEmpty && !l.isEmpty) || (match r with
    | '.' :: d => !d.isEmpty && d.all Char.isDigit
    | _ => false)

/-- `_parse_optional`: `none` if the string is an argument of an option or positional
(argparse, called at euphonic/cli/utils.py:161-165). -/
def parseOptional (P : List (Opt K)) (s : String) : Except Stop (Option (OTok K)) :=
  match s.toList with
  | '-' :: r =>
    match lookup P s with
    | some o => .ok (some (.opt o s none))
    | none =>
      if r = [] then .ok none else
      match (partitionEq s).bind fun (a, b) => (lookup P a).map fun o => (OTok.opt o a (some (true, b))) with
      | some t => .ok (some t)
      | none =>
        match optionTuples P s with
        | [t] => .ok (some t)
        | _ :: _ :: _ => .error .usage
        | [] => if isNumber r then .ok none else if r.contains ' ' then .ok none else .ok (some .unknown)
  | _ => .ok none

/-- The command line, cut before every option: strings before the first option, the options with the strings after them,
and the strings after `--` (argparse, called at euphonic/cli/utils.py:161-165). -/
structure Line (K : Type) where
  lead : List String
  groups : List (OTok K × List String)
  tail : Option (List String)

/-- The first loop of `_parse_known_args` (argparse, called at euphonic/cli/utils.py:161-165). -/
def cut (P : List (Opt K)) : List String → Except Stop (Line K)
  | [] => .ok ⟨[], [], none⟩
  | s :: l =>
    if s = "--" then .ok ⟨[], [], some l⟩ else
    (parseOptional P s).bind fun t => (cut P l).bind fun r => .ok (match t with
      | none => ⟨s :: r.lead, r.groups, r.tail⟩
      | some t => ⟨[], (t, r.lead) :: r.groups, r.tail⟩)

/-- `int()` and `float()`; `none` for a `ValueError` (argparse, called at euphonic/cli/utils.py:161-165). -/
structure Conv (K : Type) where
  int : String → Option ℤ
  flt : String → Option K

/-- `_get_value` (argparse, called at euphonic/cli/utils.py:161-165). -/
def getValue (c : Conv K) (t : Typ) (s : String) : Except Stop (Scalar K) :=
  match t with
  | .str => .ok (.str s)
  | .int => match c.int s with
    | some z => .ok (.int z)
    | none => .error .usage
  | .flt => match c.flt s with
    | some x => .ok (.flt x)
    | none => .error .usage

/-- `_check_value` (argparse, called at euphonic/cli/utils.py:161-165). -/
def allowed (o : Opt K) (v : Scalar K) : Bool :=
  match o.choices with
  | none => true
  | some l => match v with
    | .str s => l.contains s
    | _ => false

/-- A value, converted and checked (argparse, called at euphonic/cli/utils.py:161-165). -/
def scalar (c : Conv K) (o : Opt K) (s : String) : Except Stop (Scalar K) :=
  (getValue c o.typ s).bind fun v => if allowed o v then .ok v else .error .usage

/-- `_get_values`, and the constant of `store_true` and `store_false` (argparse, called at euphonic/cli/utils.py:161-165). -/
def getValues (c : Conv K) (o : Opt K) (args : List String) : Except Stop (Val K) :=
  match o.nargs, args with
  | .flag, _ => .ok o.const
  | .opt, [] => match o.const with
    | .one v => if allowed o v then .ok o.const else .error .usage
    | v => .ok v
  | .one, [s] => (scalar c o s).map .one
  | .opt, [s] => (scalar c o s).map .one
  | _, l => (l.mapM (scalar c o)).map .list

/-- The state of `_parse_known_args`: the namespace, the options seen that are in groups, the positional arguments not yet
found, whether there were superfluous strings (argparse, called at euphonic/cli/utils.py:161-165). -/
structure St (K : Type) where
  ns : String → Option (Val K)
  seen : List (Nat × List String)
  positionals : List (Opt K)
  extras : Bool

/-- Has another option of the group been seen? (argparse, called at euphonic/cli/utils.py:161-165). -/
def excluded (o : Opt K) (st : St K) : Bool :=
  match o.group with
  | none => false
  | some g => st.seen.any fun x => x.1 = g && x.2 ≠ o.names

/-- `take_action` (argparse, called at euphonic/cli/utils.py:161-165). -/
def takeAction (c : Conv K) (o : Opt K) (args : List String) (st : St K) : Except Stop (St K) :=
  (getValues c o args).bind fun v =>
    if excluded o st then .error .usage
    else if o.help then .error .help
    else .ok { st with
      ns := fun d => if d = o.dest then some v else st.ns d
      seen := match o.group with
        | none => st.seen
        | some g => (g, o.names) :: st.seen }

/-- `_match_argument`: how many of `n` strings an option takes (argparse, called at euphonic/cli/utils.py:161-165). -/
def count (na : NArgs) (n : Nat) : Option Nat :=
  match na with
  | .one => if 1 ≤ n then some 1 else none
  | .num k => if k ≤ n then some k else none
  | .opt => some (min 1 n)
  | .star => some n
  | .plus => if 1 ≤ n then some n else none
  | .flag => some 0

/-- `consume_positionals`, string by string: each is a positional argument, or superfluous
(argparse, called at euphonic/cli/utils.py:161-165). -/
def feed (c : Conv K) : List String → St K → Except Stop (St K)
  | [], st => .ok st
  | s :: l, st => match st.positionals with
    | [] => feed c l { st with extras := true }
    | p :: ps => (takeAction c p [s] { st with positionals := ps }).bind (feed c l)

/-- `consume_optional`, and the positional arguments after it (argparse, called at euphonic/cli/utils.py:161-165). -/
def doGroup (c : Conv K) (g : OTok K × List String) (st : St K) : Except Stop (St K) :=
  match g.1 with
  | .unknown => feed c g.2 { st with extras := true }
  | .opt o _ none => match count o.nargs g.2.length with
    | none => .error .usage
    | some n => (takeAction c o (g.2.take n) st).bind (feed c (g.2.drop n))
  | .opt o name (some (sep, e)) =>
    if o.nargs = .flag then
      -- only `-h` is a flag with one dash
      if starts "--" name || sep || starts "-" e then .error .usage else (takeAction c o [] st).bind (feed c g.2)
    else if count o.nargs 1 = some 1 then (takeAction c o [e] st).bind (feed c g.2) else .error .usage

/-- The strings after `--`; it is skipped with a positional argument before or after it
(argparse, called at euphonic/cli/utils.py:161-165). -/
def doTail (c : Conv K) (before : Bool) (tail : Option (List String)) (st : St K) : Except Stop (St K) :=
  match tail with
  | none => .ok st
  | some xs =>
    if before || (!st.positionals.isEmpty && !xs.isEmpty) then feed c xs st else feed c xs { st with extras := true }

/-- Was a positional argument the last string before `--`? (argparse, called at euphonic/cli/utils.py:161-165). -/
def leftOver (l : Line K) : Bool :=
  match l.groups.getLast? with
  | none => !l.lead.isEmpty
  | some (.unknown, a) => !a.isEmpty
  | some (.opt o _ none, a) => match count o.nargs a.length with
    | none => false
    | some n => decide (n < a.length)
  | some (.opt _ _ (some _), a) => !a.isEmpty

/-- Defaults: for each `dest` that of the first argument with it (argparse, called at euphonic/cli/utils.py:161-165). -/
def defaults (P : List (Opt K)) (d : String) : Option (Val K) :=
  ((P.filter fun o => !o.help).find? fun o => o.dest = d).map Opt.default

/-- The state at the start (argparse, called at euphonic/cli/utils.py:161-165). -/
def start (P : List (Opt K)) : St K := ⟨defaults P, [], P.filter fun o => o.names.isEmpty, false⟩

/-- Options one after the other (argparse, called at euphonic/cli/utils.py:161-165). -/
def doGroups (c : Conv K) : List (OTok K × List String) → St K → Except Stop (St K)
  | [], st => .ok st
  | g :: gs, st => (doGroup c g st).bind (doGroups c gs)

/-- Missing positional arguments or superfluous strings are errors (argparse, called at euphonic/cli/utils.py:161-165). -/
def finish (st : St K) : Except Stop (String → Option (Val K)) :=
  if st.positionals.isEmpty && !st.extras then .ok st.ns else .error .usage

/-- `get_args` (euphonic/cli/utils.py:142-165): `parser.parse_args(params)`. -/
def getArgs (c : Conv K) (P : List (Opt K)) (params : List String) : Except Stop (String → Option (Val K)) :=
  (cut P params).bind fun l => (feed c l.lead (start P)).bind fun st => (doGroups c l.groups st).bind fun st =>
    (doTail c (leftOver l) l.tail st).bind finish

/-! ## The parsers -/

variable [Field K]

/-- A default that is a string (euphonic/cli/utils.py:489-886). -/
def ofStr (s : String) : Val K := .one (.str s)

/-- A default that is an integer (euphonic/cli/utils.py:489-886). -/
def ofInt (z : ℤ) : Val K := .one (.int z)

/-- A default that is a number (euphonic/cli/utils.py:489-886). -/
def ofFlt (x : K) : Val K := .one (.flt x)

/-- An option with one number, `None` by default (euphonic/cli/utils.py:489-886). -/
def fltOpt (names : List String) (dest : String) : Opt K := { names, dest, typ := .flt }

/-- An option with one string, `None` by default (euphonic/cli/utils.py:489-886). -/
def strOpt (names : List String) (dest : String) : Opt K := { names, dest }

/-- A flag: `action='store_true'` (euphonic/cli/utils.py:489-886). -/
def flagOpt (names : List String) (dest : String) : Opt K :=
  { names, dest, nargs := .flag, default := .bool false, const := .bool true }

/-- Is a feature requested? (euphonic/cli/utils.py:489-886). -/
def has (F : List String) (s : String) : Bool := F.contains s

/-- Options that are defined under a condition (euphonic/cli/utils.py:489-886). -/
def whenever (b : Bool) (l : List (Opt K)) : List (Opt K) := if b then l else []

/-- euphonic/cli/utils.py:522-538. -/
def fileOpts (F : List String) : List (Opt K) :=
  whenever (K := K) (has F "read-fc" || has F "read-modes") [{ names := [], dest := "filename" }]

/-- euphonic/cli/utils.py:540-570. -/
def fcOpts (F : List String) : List (Opt K) :=
  whenever (K := K) (has F "read-fc")
    (([{ names := ["--asr"], dest := "asr", nargs := .opt, choices := some ["reciprocal", "realspace"],
         const := ofStr "reciprocal" }] : List (Opt K)) ++
      whenever (K := K) (!has F "dipole-parameter-optimisation")
        [{ names := ["--dipole-parameter"], dest := "dipole_parameter", typ := .flt, default := ofFlt 1 }] ++
      ([{ names := ["--use-c"], dest := "use_c", nargs := .flag, const := .bool true, group := some 0 },
       { names := ["--disable-c"], dest := "use_c", nargs := .flag, const := .bool false, group := some 0 },
       { names := ["--n-threads"], dest := "n_threads", typ := .int }] : List (Opt K)))

/-- euphonic/cli/utils.py:576-588. -/
def pdosOpts (F : List String) : List (Opt K) :=
  whenever (K := K) (has F "pdos-weighting")
    [{ names := ["--pdos"], dest := "pdos", nargs := if has F "q-e" then .num 1 else .star }]

/-- The choices of `--weighting` (euphonic/cli/utils.py:494-498, 592-602). -/
def weightings (F : List String) : List String :=
  ["dos"] ++ (if has F "pdos-weighting" then ["coherent-dos", "incoherent-dos", "coherent-plus-incoherent-dos"] else []) ++
    (if has F "ins-weighting" then ["coherent"] else [])

/-- euphonic/cli/utils.py:590-615. -/
def weightingOpts (F : List String) : List (Opt K) :=
  whenever (K := K) (has F "pdos-weighting" || has F "ins-weighting")
    [{ names := ["--weighting", "-w"], dest := "weighting", choices := some (weightings F), default := ofStr "dos" }] ++
  whenever (K := K) (has F "ins-weighting") [fltOpt ["--temperature"] "temperature"]

/-- euphonic/cli/utils.py:617-632. -/
def gridOpts (F : List String) : List (Opt K) :=
  whenever (K := K) (has F "ins-weighting" || has F "mp-grid")
    [{ names := ["--grid"], dest := "grid", nargs := .num 3, typ := .int, group := some 1 },
     { names := ["--grid-spacing"], dest := "grid_spacing", typ := .flt, default := ofFlt (1 / 10), group := some 1 }] ++
  whenever (K := K) (has F "scaling") [fltOpt ["--scale"] "scale"]

/-- euphonic/cli/utils.py:634-664. -/
def powderOpts (F : List String) : List (Opt K) :=
  whenever (K := K) (has F "powder")
    [{ names := ["--npts", "-n"], dest := "npts", typ := .int, default := ofInt 1000, group := some 2 },
     { names := ["--npts-density"], dest := "npts_density", typ := .int, group := some 2 },
     { names := ["--npts-min"], dest := "npts_min", typ := .int, default := ofInt 100 },
     { names := ["--npts-max"], dest := "npts_max", typ := .int, default := ofInt 10000 },
     { names := ["--sampling"], dest := "sampling", default := ofStr "golden",
       choices := some ["golden", "sphere-projected-grid", "spherical-polar-grid", "spherical-polar-improved",
         "random-sphere"] },
     flagOpt ["--jitter"] "jitter"]

/-- euphonic/cli/utils.py:666-705. -/
def plottingOpts (F : List String) : List (Opt K) :=
  whenever (K := K) (has F "plotting")
    [strOpt ["--save-json"] "save_json", strOpt ["-s", "--save-to"] "save_to",
     { names := ["--title"], dest := "title", default := ofStr "" },
     strOpt ["--x-label", "--xlabel"] "xlabel", strOpt ["--y-label", "--ylabel"] "ylabel",
     { names := ["--style"], dest := "style", nargs := .plus },
     flagOpt ["--no-base-style"] "no_base_style", strOpt ["--font"] "font",
     fltOpt ["--font-size", "--fontsize"] "fontsize",
     { names := ["--fig-size", "--figsize"], dest := "figsize", nargs := .num 2, typ := .flt },
     { names := ["--fig-size-unit", "--figsize-unit"], dest := "figsize_unit", default := ofStr "cm" }] ++
  whenever (K := K) (has F "plotting" && !has F "map") [fltOpt ["--line-width", "--linewidth"] "linewidth"]

/-- euphonic/cli/utils.py:707-714. -/
def energyOpts (F : List String) : List (Opt K) :=
  whenever (K := K) (has F "ebins" || has F "q-e")
    [fltOpt ["--e-min"] "e_min", fltOpt ["--e-max"] "e_max",
     { names := ["--energy-unit", "-u"], dest := "energy_unit", default := ofStr "meV" }]

/-- euphonic/cli/utils.py:716-783; without `'ebins'` nothing happens (the `ValueError` is not raised). -/
def broadeningOpts (F : List String) : List (Opt K) :=
  whenever (K := K) (has F "ebins")
    (([{ names := ["--ebins"], dest := "ebins", typ := .int, default := ofInt 200 }] : List (Opt K)) ++
      whenever (K := K) (has F "adaptive-broadening")
        [flagOpt ["--adaptive"] "adaptive",
         { names := ["--adaptive-method"], dest := "adaptive_method", default := ofStr "reference",
           choices := some ["reference", "fast"] },
         { names := ["--adaptive-error"], dest := "adaptive_error", typ := .flt, default := ofFlt (1 / 100) },
         fltOpt ["--adaptive-scale"] "adaptive_scale",
         { names := ["--adaptive-fit"], dest := "adaptive_fit", default := ofStr "cubic",
           choices := some ["cubic", "cheby-log"] },
         { names := ["--instrument-broadening"], dest := "inst_broadening", nargs := .plus, typ := .flt }] ++
      ([{ names := ["--energy-broadening", "--eb"], dest := "energy_broadening", nargs := .plus, typ := .flt },
       { names := ["--shape"], dest := "shape", nargs := .opt, default := ofStr "gauss",
         choices := some ["gauss", "lorentz"] }] : List (Opt K)))

/-- euphonic/cli/utils.py:785-814. -/
def qOpts (F : List String) : List (Opt K) :=
  whenever (K := K) (has F "q-e" || has F "mp-grid")
    [{ names := ["--length-unit"], dest := "length_unit", default := ofStr "angstrom" }] ++
  whenever (K := K) (has F "q-e") [{ names := ["--q-spacing"], dest := "q_spacing", typ := .flt, default := ofFlt (1 / 40) }] ++
  whenever (K := K) (has F "q-e" && has F "map")
    [{ names := ["--q-broadening", "--qb"], dest := "q_broadening", typ := .flt,
       nargs := if has F "powder" then .plus else .num 1 }]

/-- euphonic/cli/utils.py:816-833. -/
def mapOpts (F : List String) : List (Opt K) :=
  whenever (K := K) (has F "map")
    [fltOpt ["--v-min", "--vmin"] "vmin", fltOpt ["--v-max", "--vmax"] "vmax", strOpt ["--c-map", "--cmap"] "cmap"] ++
  whenever (K := K) (has F "btol") [{ names := ["--btol"], dest := "btol", typ := .flt, default := ofFlt 10 }]

/-- euphonic/cli/utils.py:835-856. -/
def brilleOpts (F : List String) : List (Opt K) :=
  whenever (K := K) (has F "brille")
    [flagOpt ["--use-brille"] "use_brille",
     { names := ["--brille-grid-type"], dest := "brille_grid_type", default := ofStr "trellis",
       choices := some ["trellis", "mesh", "nest"] },
     { names := ["--brille-npts"], dest := "brille_npts", typ := .int, default := ofInt 5000 },
     { names := ["--brille-npts-density"], dest := "brille_npts_density", typ := .int }]

/-- euphonic/cli/utils.py:858-884. -/
def dipoleOpts (F : List String) : List (Opt K) :=
  whenever (K := K) (has F "dipole-parameter-optimisation")
    [{ names := ["-n"], dest := "n", typ := .int, default := ofInt 500 },
     { names := ["--dipole-parameter-min", "--min"], dest := "dipole_parameter_min", typ := .flt, default := ofFlt (1 / 4) },
     { names := ["--dipole-parameter-max", "--max"], dest := "dipole_parameter_max", typ := .flt, default := ofFlt (3 / 2) },
     { names := ["--dipole-parameter-step", "--step"], dest := "dipole_parameter_step", typ := .flt,
       default := ofFlt (1 / 4) }]

/-- The calls of `add_argument` in `_get_cli_parser`, in order (euphonic/cli/utils.py:522-884). -/
def cliOpts (F : List String) : List (Opt K) :=
  fileOpts F ++ fcOpts F ++ pdosOpts F ++ weightingOpts F ++ gridOpts F ++ powderOpts F ++ plottingOpts F ++ energyOpts F ++
    broadeningOpts F ++ qOpts F ++ mapOpts F ++ brilleOpts F ++ dipoleOpts F

/-- `_get_cli_parser` (euphonic/cli/utils.py:451-886). -/
def getCliParser (F : List String) : Except BuildErr (List (Opt K)) :=
  if has F "read-modes" && !has F "read-fc" then .error .value else build (cliOpts F)

/-- `get_parser` of `euphonic-dispersion` (euphonic/cli/dispersion.py:65-80). -/
def dispersionParser : Except BuildErr (List (Opt K)) :=
  (getCliParser ["read-fc", "read-modes", "plotting", "q-e", "btol"]).bind fun P => addOpt P (flagOpt ["--reorder"] "reorder")

/-- `get_parser` of `euphonic-dos` (euphonic/cli/dos.py:139-150). -/
def dosParser : Except BuildErr (List (Opt K)) :=
  getCliParser ["read-fc", "read-modes", "mp-grid", "plotting", "ebins", "adaptive-broadening", "pdos-weighting", "scaling"]

/-- `get_parser` of `euphonic-intensity-map` (euphonic/cli/intensity_map.py:107-122). -/
def intensityParser : Except BuildErr (List (Opt K)) :=
  getCliParser ["read-fc", "read-modes", "q-e", "map", "btol", "ebins", "ins-weighting", "plotting", "scaling"]

/-- Options that `euphonic-powder-map` adds (euphonic/cli/powder_map.py:51-75). -/
def powderExtra : List (Opt K) :=
  [{ names := ["--q-min"], dest := "q_min", typ := .flt, default := ofFlt 0 },
   { names := ["--q-max"], dest := "q_max", typ := .flt, default := ofFlt 3 },
   flagOpt ["--no-widgets"] "disable_widgets",
   { names := ["--e-incident", "--e-i"], dest := "e_i", typ := .flt, group := some 3 },
   { names := ["--e-final", "--e-f"], dest := "e_f", typ := .flt, group := some 3 },
   { names := ["--angle-range"], dest := "angle_range", nargs := .num 2, typ := .flt, default := .list [.flt 0, .flt 180] }]

/-- `get_parser` of `euphonic-powder-map` (euphonic/cli/powder_map.py:37-76). -/
def powderParser : Except BuildErr (List (Opt K)) :=
  (getCliParser ["read-fc", "pdos-weighting", "ins-weighting", "powder", "plotting", "ebins", "q-e", "map", "brille",
    "kinematic", "scaling"]).bind fun P => powderExtra.foldlM addOpt P

/-- `get_parser` of `euphonic-optimise-dipole-parameter` (euphonic/cli/optimise_dipole_parameter.py:133-141). -/
def dipoleParser : Except BuildErr (List (Opt K)) := getCliParser ["read-fc", "dipole-parameter-optimisation"]

/-- Options that `euphonic-brille-convergence` adds or replaces (euphonic/cli/brille_convergence.py:215-231). -/
def brilleExtra : List (Opt K) :=
  [{ names := ["--npts"], dest := "npts", typ := .int, default := ofInt 1000 },
   strOpt ["--use-brille"] "use_brille",
   { names := ["--brille-npts"], dest := "brille_npts", typ := .int, nargs := .plus, default := .list [.int 5000] },
   { names := ["--brille-npts-density"], dest := "brille_npts_density", typ := .int, nargs := .plus },
   { names := ["-n"], dest := "n", typ := .int, default := ofInt 0 }]

/-- `get_parser` of `euphonic-brille-convergence` (euphonic/cli/brille_convergence.py:207-233). -/
def brilleParser : Except BuildErr (List (Opt K)) :=
  .ok ((cliOpts ["read-fc", "brille", "ebins"] ++ brilleExtra).foldl addResolve [helpOpt])

/-- `get_parser` of `euphonic-show-sampling` (euphonic/cli/show_sampling.py:11-27). -/
def samplingParser : Except BuildErr (List (Opt K)) :=
  build [{ names := [], dest := "npts", typ := .int },
    { names := [], dest := "sampling", choices := some ["golden-square", "regular-square", "recurrence-square",
        "golden-sphere", "sphere-from-square-grid", "spherical-polar-grid", "spherical-polar-improved", "random-sphere",
        "recurrence-cube"] },
    flagOpt ["--jitter"] "jitter",
    strOpt ["-s", "--save-plot"] "save_plot"]

/-- `_calc_modes_kwargs`: `none` is an `AttributeError` (euphonic/cli/utils.py:427-433). -/
def calcModesKwargs (ns : String → Option (Val K)) : Option (List (String × Val K)) :=
  ["asr", "dipole_parameter", "use_c", "n_threads"].mapM fun k => (ns k).map fun v => (k, v)

/-- A label, or the default if it is `None` (euphonic/cli/utils.py:418-423). -/
def labelOr (v : Val K) (default : String) : Val K :=
  match v with
  | .none => ofStr default
  | v => v

/-- `_plot_label_kwargs`: title and the labels of the x and y axes; `none` is an `AttributeError`
(euphonic/cli/utils.py:413-424). -/
def plotLabelKwargs (ns : String → Option (Val K)) (xlabel ylabel : String) : Option (Val K × Val K × Val K) :=
  (ns "title").bind fun t => (ns "ylabel").bind fun y => (ns "xlabel").map fun x => (t, labelOr x xlabel, labelOr y ylabel)

/-- `**calc_modes_kwargs` of a function that is called with `**vars(args)`: the arguments that are not parameters of their
own (euphonic/cli/optimise_dipole_parameter.py:22-37, euphonic/cli/brille_convergence.py:21-42). -/
def restKwargs (named : List String) (ns : String → Option (Val K)) : String → Option (Val K) :=
  fun d => if named.contains d then none else ns d

end Euphonic.Args
