import Verif.Model.Base

/-!
# Model of the styles of plots made by the command-line tools (euphonic/cli/utils.py, euphonic/cli/*.py)

`_compose_style` collects style sheets and explicit options; `matplotlib.style.context` applies them from left to
right.  What a style sheet sets is a parameter (reading it is Matplotlib's), so is the conversion of the unit of
`--figsize` to inches (Pint's).  Numbers are elements of an arbitrary type with a zero and a product.
-/

set_option autoImplicit false

namespace Euphonic.Style

variable {K : Type} [Zero K] [Mul K] [DecidableEq K]

/-- A value of a Matplotlib setting: a string, a number or a list of numbers. -/
inductive Val (K : Type) where
  | str (s : String)
  | num (x : K)
  | nums (xs : List K)
deriving DecidableEq

/-- Settings in the order in which they have been added to a dictionary. -/
abbrev Settings (K : Type) := List (String × Val K)

/-- An element of the list of styles: the name (or path) of a style sheet or a dictionary of settings. -/
inductive Elem (K : Type) where
  | sheet (name : String)
  | dict (d : Settings K)
deriving DecidableEq

/-- The options read by `_compose_style` (euphonic/cli/utils.py:680-705, 823-825); `none` where an option has not
been given or the tool does not have it (`getattr(user_args, user_arg, None)`). -/
structure Args (K : Type) where
  noBaseStyle : Bool
  style : Option (List String)
  cmap : Option String
  fontsize : Option K
  font : Option String
  linewidth : Option K
  figsize : Option (List K)
  figsizeUnit : String

/-- Truth value of an option as Python has it: `None`, the empty string, zero and the empty list count as false
(euphonic/cli/utils.py:923). -/
def truthy : Option (Val K) → Bool
  | none => false
  | some (.str s) => !s.isEmpty
  | some (.num x) => !decide (x = 0)
  | some (.nums xs) => !xs.isEmpty

/-- `getattr(user_args, user_arg, None)` beside the names of the settings, in the order of the dictionary
(euphonic/cli/utils.py:918-922). -/
def options (a : Args K) : List (String × Option (Val K)) :=
  [("image.cmap", a.cmap.map .str), ("font.size", a.fontsize.map .num), ("font.sans-serif", a.font.map .str),
    ("lines.linewidth", a.linewidth.map .num), ("figure.figsize", a.figsize.map .nums)]

/-- The loop that fills `explicit_args` (euphonic/cli/utils.py:917-924). -/
def collect (os : List (String × Option (Val K))) : Settings K :=
  os.filterMap fun p => if truthy p.2 then p.2.map fun v => (p.1, v) else none

/-- `if 'font.sans-serif' in explicit_args` (euphonic/cli/utils.py:926-927). -/
def addFamily (d : Settings K) : Settings K :=
  if d.any fun p => p.1 == "font.sans-serif" then d ++ [("font.family", .str "sans-serif")] else d

/-- The conversion of the size of the figure to inches (euphonic/cli/utils.py:929-933).  `inches` gives the number
of inches in the unit, or the error raised by Pint. -/
def convertSize (inches : String → Except Err K) (unit : String) : Settings K → Except Err (Settings K)
  | [] => .ok []
  | (k, .nums xs) :: d =>
    if k = "figure.figsize" then do
      let f ← inches unit
      let d' ← convertSize inches unit d
      return (k, .nums (xs.map fun x => x * f)) :: d'
    else do
      let d' ← convertSize inches unit d
      return (k, .nums xs) :: d'
  | p :: d => do
    let d' ← convertSize inches unit d
    return p :: d'

/-- `explicit_args` (euphonic/cli/utils.py:916-933). -/
def explicitArgs (inches : String → Except Err K) (a : Args K) : Except Err (Settings K) :=
  convertSize inches a.figsizeUnit (addFamily (collect (options a)))

/-- `_compose_style` (euphonic/cli/utils.py:892-936): the list returned, and the list `base` of the caller
afterwards.  If the base styles are used, `style` *is* that list: `+=` and `append` change it. -/
def composeStyle (inches : String → Except Err K) (a : Args K) (base : Option (List (Elem K))) :
    Except Err (List (Elem K) × Option (List (Elem K))) := do
  let user : List (Elem K) := (a.style.getD []).map .sheet
  let d ← explicitArgs inches a
  match base with
  | none => return (user ++ [.dict d], none)
  | some b =>
    if a.noBaseStyle then return (user ++ [.dict d], some b)
    else return (b ++ user ++ [.dict d], some (b ++ user ++ [.dict d]))

/-- The styles used by the tools: `euphonic-dispersion`, `euphonic-dos`, `euphonic-intensity-map` and
`euphonic-powder-map` when it saves or does not show widgets pass `[base_style]`, otherwise the style of the widgets
follows (euphonic/cli/dispersion.py:52-53, euphonic/cli/dos.py:133, euphonic/cli/intensity_map.py:97,
euphonic/cli/powder_map.py:251-255). -/
def toolBase (widgets : Bool) : List (Elem K) :=
  if widgets then [.sheet "base.mplstyle", .sheet "intensity_widget.mplstyle"] else [.sheet "base.mplstyle"]

/-- What a style sets: the contents of a sheet (a parameter) or the dictionary itself. -/
def contents (sheet : String → Settings K) : Elem K → Settings K
  | .sheet s => sheet s
  | .dict d => d

/-- The value that a dictionary holds for a key: the last one written. -/
def lastOf (d : Settings K) (k : String) : Option (Val K) :=
  (d.reverse.find? fun p => p.1 == k).map (·.2)

/-- `matplotlib.style.context(style)` (euphonic/cli/dispersion.py:54 and likewise): the settings `rc` are updated
with each style from left to right. -/
def applyStyles (sheet : String → Settings K) (rc : String → Option (Val K)) :
    List (Elem K) → String → Option (Val K)
  | [] => rc
  | e :: es => applyStyles sheet (fun k => (lastOf (contents sheet e) k).or (rc k)) es

end Euphonic.Style
