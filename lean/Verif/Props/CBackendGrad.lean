import Verif.Props.CBackend
import Verif.Props.Gradient

/-!
# C124: the mode gradients of C are those of Python
-/

set_option autoImplicit false

namespace Euphonic.CLoop

open Euphonic.Lattice Euphonic.DynMat Euphonic.Dipole Euphonic.Phases Euphonic.Images Euphonic.CExt Euphonic.Driver

/-- **C124 (with gradients).** As `C124_results_partial`, but the condition for mode gradients is one on the force constants
only: that they give Hermitian dynamical matrices, which `C123_hermitian_partial` proves for symmetric force constants in
reduced supercells.  *Missing:* as in `C124_results_partial`. -/
theorem C124_gradients_partial (C : Inputs) (P : Python C) (H : Matches C P) (hv : cellVolume P.cv ≠ 0)
    (hH : ∀ q k l, dynMat P.fcw P.cells P.scOs (padded C.I P.ims) q l k
      = star (dynMat P.fcw P.cells P.scOs (padded C.I P.ims) q k l))
    (reduce : Bool) {qs rq dirs : List (V3 ℝ)} {qi : List Nat} (h : Passed C reduce qs rq qi dirs)
    (hhalf : C.dipole = true → ∀ q ∈ qs, NotHalf (evalPoint reduce q))
    (hgamma : C.splitting = true → reduce = true ∨ ∀ q ∈ qs, isGamma q = true → ∃ G : V3 ℤ, q = castV ℝ G)
    (rows : Nat → Row) (hrows : ∀ i < rq.length, ∃ todo b, (i, rows i) ∈ run C todo b) :
    ∃ res : List (Except Err (PyRow C.I.n)), atQpts reduce C.splitting qs (pyAt C P) = .ok res ∧ res.length = qs.length ∧
      qi.length = qs.length ∧
      ∀ (p : Nat) (r : PyRow C.I.n), res[p]? = some (.ok r) → ∃ i, qi[p]? = some i ∧ i < rq.length ∧ SameAs C (rows i) r :=
  C124_results_partial C P H reduce h hhalf hgamma
    (fun _ q _ d k l => Gradient.C126_gradient_hermitian P.cv hv P.fcw P.cells P.scOs _ hH (evalPoint reduce q) d l k)
    rows hrows

/-- Two atoms with charges, gradients, and a Hermitian dynamical matrix. -/
example (erfc : ℝ → ℝ) (heevd : (Fin (2 * 3) → Fin (2 * 3) → ℂ) → Diag) :
    ∃ (C : Inputs) (P : Python C) (rq dirs : List (V3 ℝ)) (qi : List Nat), C.grad = true ∧ cellVolume P.cv ≠ 0 ∧
      (∀ q k l, dynMat P.fcw P.cells P.scOs (padded C.I P.ims) q l k
        = star (dynMat P.fcw P.cells P.scOs (padded C.I P.ims) q k l)) ∧ Matches C P ∧
      Passed C true [⟨1 / 4, 0, 0⟩, ⟨0, 0, 0⟩, ⟨0, 1 / 3, 0⟩, ⟨5 / 4, 0, 0⟩] rq qi dirs := by
  obtain ⟨C, P, rq, dirs, qi, -, -, -, hg, -, ⟨hv, hf, hc, hs, hi⟩, hM, hP⟩ :=
    exists_inputs 1 2 ⟨⟨1, 0, 0⟩, ⟨0, 1, 0⟩, ⟨0, 0, 1⟩⟩ (fun _ k l => if k = l then 2 else -1) (fun _ => ⟨0, 0, 0⟩) [⟨0, 0, 0⟩]
    (fun _ _ _ => [0]) 1 (by simp) (by simp) erfc
    ⟨⟨⟨1, 0, 0⟩, ⟨0, 1, 0⟩, ⟨0, 0, 1⟩⟩, ![⟨0, 0, 0⟩, ⟨1 / 2, 1 / 3, 1 / 2⟩],
      ![fun a b => if a = b then 1 else 0, fun a b => if a = b then -1 else 0], !![2, 0, 0; 0, 3, 0; 0, 0, 5]⟩ 1
    (fun _ _ => 1) (by simp) true true true [⟨1 / 4, 0, 0⟩, ⟨0, 0, 0⟩, ⟨0, 1 / 3, 0⟩, ⟨5 / 4, 0, 0⟩] heevd
    (fun _ _ cv fcw cells scOs ims => cellVolume cv ≠ 0 ∧ (∀ c k l, fcw c k l = fcw c l k) ∧ (∀ c, cells c = ⟨0, 0, 0⟩) ∧
      scOs = [⟨0, 0, 0⟩] ∧ ∀ c i j, ims c i j = [0])
    ⟨by simp [cellVolume, dot, cross], fun _ k l => by simp only [eq_comm], fun _ => rfl, rfl, fun _ _ _ => rfl⟩
  refine ⟨C, P, rq, dirs, qi, hg, hv, fun q k l => ?_, hM, hP⟩
  rw [hM.layout.dynMat_eq, hM.layout.dynMat_eq]
  simp [origin, hc, hs, hi, hf _ l k, add, expQR_zero]

end Euphonic.CLoop
