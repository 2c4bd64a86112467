import Verif.Model.Dos
import Verif.Model.Broaden

/-!
# Model of the command `euphonic-dos` (euphonic/cli/dos.py:19-136)

The chain from options and phonon data to the total density of states that is plotted and saved.  Not modelled: reading the
file (C74), the q-point grid and the calculation of the modes, partial densities of states (C73), `--adaptive-method fast`
(C69), plotting.  Energies are in the unit `--energy-unit`, in which `c` is the value of the unit in hartree.
-/

set_option autoImplicit false

namespace Euphonic.DosCli

open Broaden

/-- The kind of data found in the file (euphonic/cli/dos.py:24-33). -/
inductive Kind where
  | forceConstants | modes | frequencies
  deriving DecidableEq, Repr

/-- The options that matter here (euphonic/cli/utils.py:716-780); `none` is the default of an option that is not given.
Options with `nargs='+'` have one value at least. -/
structure Args where
  weighting : String
  pdos : Option (List String)
  adaptive : Bool
  adaptiveScale : Option ℝ
  energyBroadening : Option (List ℝ)
  instBroadening : Option (List ℝ)
  shape : String
  scale : Option ℝ

/-- `frequencies_only` (euphonic/cli/dos.py:23). -/
def frequenciesOnly (a : Args) : Bool := decide (a.weighting = "dos" ∧ a.pdos = none)

/-- The checks of the kind of data (euphonic/cli/dos.py:27-33).  The file reader (C74) gives frequencies only if the file has no
eigenvectors or if only frequencies were asked for. -/
def checkKind (a : Args) (k : Kind) : Except Err Unit :=
  if frequenciesOnly a = false ∧ k = .frequencies then .error .typeError
  else if a.adaptive = true ∧ k ≠ .forceConstants then .error .typeError
  else .ok ()

/-- The broadening settings after the aliases have been resolved. -/
structure Settings where
  adaptiveScale : Option ℝ
  inst : Option (List ℝ)

/-- `args.energy_broadening` is an alias of one of the two (euphonic/cli/dos.py:35-51). -/
def resolve (a : Args) : Except Err Settings :=
  match a.energyBroadening with
  | none => .ok ⟨a.adaptiveScale, a.instBroadening⟩
  | some eb =>
    if a.adaptive = true ∧ eb.length = 1 then
      match a.adaptiveScale with
      | some _ => .error .valueError
      | none => .ok ⟨some (eb.headD 0), a.instBroadening⟩
    else
      match a.instBroadening with
      | some _ => .error .valueError
      | none => .ok ⟨a.adaptiveScale, some eb⟩

/-- `numpy.polynomial.Polynomial(coef)(x)` (euphonic/cli/dos.py:54, 80, 111). -/
def polyEval (coef : List ℝ) (x : ℝ) : ℝ := coef.foldr (fun c acc => c + x * acc) 0

/-- `if args.adaptive_scale: mode_widths *= args.adaptive_scale` (euphonic/cli/dos.py:72-73); zero is false. -/
noncomputable def scaleWidth (s : Settings) (w : ℝ) : ℝ :=
  match s.adaptiveScale with
  | none => w
  | some k => if k = 0 then w else w * k

/-- The width of one mode of frequency `f` whose gradient gives the width `w` (euphonic/cli/dos.py:69-82). -/
noncomputable def modeWidth (s : Settings) (shape : String) (w f : ℝ) : ℝ :=
  match s.inst with
  | none => scaleWidth s w
  | some coef =>
    if shape = "gauss" then Real.sqrt (scaleWidth s w ^ 2 + polyEval coef f ^ 2) else scaleWidth s w

/-- What is done to the density of states afterwards. -/
inductive Post where
  | nothing
  | variable (coef : List ℝ)
  | fixed (width : ℝ)

/-- The choice of euphonic/cli/dos.py:103-123. -/
def post (a : Args) (s : Settings) : Post :=
  match s.inst with
  | none => .nothing
  | some coef =>
    if a.shape = "gauss" ∧ a.adaptive = true then .nothing
    else if coef.length > 1 then .variable coef
    else .fixed (coef.headD 0)

/-- The broadening of the density of states (euphonic/cli/dos.py:103-123); `coeffs` as in `Broaden.widthInterpolated`,
`error` is `--adaptive-error`. -/
noncomputable def applyPost (coeffs : ℝ → List ℝ) (error : ℝ) (shape : String) (bins : List ℝ) {n : Nat} (d : Fin n → ℝ) :
    Post → Except Err (Fin n → ℝ)
  | .nothing => .ok d
  | .fixed w => broaden1d shape none bins w d
  | .variable coef =>
    broadenFunction coeffs "fwhm" shape "cheby-log" error none (fun i : Fin (n + 1) => bins.getD i 0) (polyEval coef) d

/-- The density of states before broadening (euphonic/cli/dos.py:57-99): `freqs` are the frequencies and `grads` the widths
from the gradients (C76), both in the energy unit; `wmin` is the smallest width, 0.01 meV, in hartree. -/
noncomputable def rawDos (c wmin : ℝ) (bins : List ℝ) {nq nm : Nat} (freqs grads : Fin nq → Fin nm → ℝ)
    (weights : Fin nq → ℝ) (a : Args) (s : Settings) : Except Err (List ℝ) :=
  if a.adaptive then
    .ok (Dos.calculateDosAdaptive (fun x f w => normPdf (x - f) w) c bins (fun q m => freqs q m * c)
      (fun q m => modeWidth s a.shape (grads q m) (freqs q m) * c) wmin weights)
  else Dos.calculateDos c bins (fun q m => freqs q m * c) weights

/-- `if args.scale is not None: dos *= args.scale` (euphonic/cli/dos.py:128-129). -/
def applyScale {n : Nat} (d : Fin n → ℝ) : Option ℝ → Fin n → ℝ
  | none => d
  | some k => fun i => d i * k

/-- `main` for `--weighting dos` without `--pdos` (euphonic/cli/dos.py:19-132): the y values of the result. -/
noncomputable def dosMain (coeffs : ℝ → List ℝ) (error c wmin : ℝ) (k : Kind) (bins : List ℝ) {nq nm : Nat}
    (freqs grads : Fin nq → Fin nm → ℝ) (weights : Fin nq → ℝ) (a : Args) : Except Err (List ℝ) := do
  checkKind a k
  let s ← resolve a
  let y ← rawDos c wmin bins freqs grads weights a s
  let d ← applyPost coeffs error a.shape bins (fun i : Fin y.length => y.get i) (post a s)
  return List.ofFn (applyScale d a.scale)

end Euphonic.DosCli
