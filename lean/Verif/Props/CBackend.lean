import Verif.Props.CLoop
import Verif.Props.Driver

/-!
# C124: results with and without the C extension
-/

set_option autoImplicit false

namespace Euphonic.CLoop

open Euphonic.CExt Euphonic.Lattice Euphonic.Phases Euphonic.Driver Euphonic.DynMat Euphonic.Dipole Euphonic.Images

/-- The results at a q-point in Python: frequencies, eigenvectors, mode gradients. -/
structure PyRow (n : Nat) where
  freqs : Fin (n * 3) → ℝ
  evecs : Fin (n * 3) → Fin (n * 3) → ℂ
  grads : Fin (n * 3) → Fin 3 → ℂ

/-- What Python passes to C about the q-points (euphonic/force_constants.py:498-537, 682-689): the reduced q-points, which
of them are gamma points, and the directions of these. -/
structure Passed (C : Inputs) (reduce : Bool) (qs rq : List (V3 ℝ)) (qi : List Nat) (dirs : List (V3 ℝ)) : Prop where
  reduced : reduceQ reduce C.splitting qs = (rq, qi)
  found : dirsIf C.splitting qs qi (if C.splitting then whereGamma rq else []) = .ok dirs
  points : ∀ i < rq.length, Holds (C.rqpts i) (rq.getD i zeroV)
  split : C.splitIdx = if C.splitting then whereGamma rq else []
  directions : ∀ k < dirs.length, Holds (C.qDirs k) (dirs.getD k zeroV)

theorem positions_head {l : List Nat} {i k : Nat} {t : List Nat} (h : positions l i = k :: t) : i ∈ l ∧ l.idxOf i = k := by
  unfold positions at h
  have hk : k ∈ (List.range l.length).filter fun p => l.getD p 0 == i := by rw [h]; simp
  obtain ⟨hk1, hk2⟩ := List.mem_filter.1 hk
  rw [List.mem_range] at hk1
  rw [beq_iff_eq, List.getD_eq_getElem _ _ hk1] at hk2
  have hmem : i ∈ l := hk2 ▸ List.getElem_mem hk1
  refine ⟨hmem, ?_⟩
  have hlt := List.idxOf_lt_length_of_mem hmem
  have hin : l.idxOf i ∈ (List.range l.length).filter fun p => l.getD p 0 == i := by
    refine List.mem_filter.2 ⟨List.mem_range.2 hlt, ?_⟩
    rw [beq_iff_eq, List.getD_eq_getElem _ _ hlt, List.getElem_idxOf]
  have hle : k ≤ l.idxOf i := by
    have hs : ((List.range l.length).filter fun p => l.getD p 0 == i).Pairwise (· < ·) :=
      (List.pairwise_lt_range).filter _
    rw [h] at hs hin
    rcases List.mem_cons.1 hin with h' | h'
    · omega
    · exact ((List.pairwise_cons.1 hs).1 _ h').le
  have hge : l.idxOf i ≤ k := by
    by_contra hc
    have hf := List.not_of_lt_findIdx (p := fun x => x == i) (xs := l) (i := k) (by unfold List.idxOf at hc; omega)
    simp [hk2] at hf
  omega

/-- **C124** At every q-point of the list the C code uses the q-point and the direction that Python uses. -/
theorem C124_direction (C : Inputs) (reduce : Bool) {qs rq dirs : List (V3 ℝ)} {qi : List Nat}
    (h : Passed C reduce qs rq qi dirs) (p : Nat) (hp : p < qs.length) :
    qi.getD p 0 < rq.length ∧ Holds (C.rqpts (qi.getD p 0)) (evalPoint reduce (qs.getD p zeroV)) ∧
      HoldsOpt (dirOf C (qi.getD p 0)) (pathDir C.splitting qs p) := by
  have hg := reduceQ_good reduce C.splitting qs
  rw [h.reduced] at hg
  dsimp only at hg
  have hlt := hg.lt p hp
  have hpt := h.points _ hlt
  obtain ⟨dirs', hd, hloop⟩ := loopDir_spec reduce C.splitting qs rq qi h.reduced
  obtain rfl : dirs' = dirs := by
    rw [h.found] at hd
    exact (Except.ok.inj hd).symm
  refine ⟨hlt, by rw [← hg.point p hp]; exact hpt, ?_⟩
  have hl := hloop p hp
  unfold loopDir at hl
  unfold dirOf
  rw [C53_is_gamma _ _ hpt]
  split at hl
  · rename_i hc
    rw [if_pos hc]
    split at hl
    · cases hl
    · rename_i k t hk
      split at hl
      · rename_i hkl
        rw [← h.split] at hk
        obtain ⟨h1, h2⟩ := positions_head hk
        have hq : qpos C (qi.getD p 0) = (k : ℤ) := by rw [qpos, if_pos h1, h2]
        rw [hq, ← Except.ok.inj hl]
        exact h.directions k hkl
      · cases hl
  · rename_i hc
    rw [if_neg hc, ← Except.ok.inj hl]
    trivial

/-! ## The results -/

/-- What the Python code works with: cell, weighted force constants, cell origins, supercells, images, ions with `erfc`
(if there are dipole corrections), sum rule correction, mass weights, and LAPACK's diagonalisation of a Hermitian matrix. -/
structure Python (C : Inputs) where
  cv : M3 ℝ
  fcw : Fin C.I.nCells → Mat C.I.n ℝ
  cells : Fin C.I.nCells → V3 ℤ
  scOs : List (V3 ℤ)
  ims : Fin C.I.nCells → Fin C.I.n → Fin C.I.n → List Nat
  erfc : ℝ → ℝ
  ions : Ions C.I.n
  asr : Option (Mat C.I.n ℂ)
  w : Mat C.I.n ℝ
  heevd : (Fin (C.I.n * 3) → Fin (C.I.n * 3) → ℂ) → Diag

/-- C is given the arrays of Python, and LAPACK's result depends on the Hermitian matrix it is given only. -/
structure Matches (C : Inputs) (P : Python C) : Prop where
  atoms : C.D.n = C.I.n
  splitting : C.splitting = true → C.dipole = true
  layout : Layout C.I P.cv P.fcw P.cells P.scOs P.ims
  dipoles : C.dipole = true → DipLayout C.D P.erfc (atoms ▸ P.ions)
  det : C.dipole = true → detArray C.D.diel = P.ions.diel.det
  asr : ∀ M ∈ P.asr, ∃ m ∈ C.asr, ∀ k l : Fin (C.I.n * 3), cAt m (k * (3 * C.I.n) + l) = star (M l k)
  noAsr : P.asr = none → C.asr = none
  symmetric : ∀ M ∈ P.asr, ∀ k l, M k l = M l k
  weights : ∀ k l : Fin (C.I.n * 3), C.w (k * (3 * C.I.n) + l) = P.w k l
  lapack : ∀ m, C.zheevd m = P.heevd fun r c => zheevdReads (3 * C.I.n) m r c

/-- `_calculate_phonons_at_q` (euphonic/force_constants.py:804-856) put together from its parts: the matrix, its
diagonalisation, which raises an error if LAPACK fails, frequencies, eigenvectors and mode gradients. -/
noncomputable def pyAt (C : Inputs) (P : Python C) (q : V3 ℝ) (v : Option (V3 ℝ)) : Except Err (PyRow C.I.n) :=
  let M := weighted P.w (dynMat P.fcw P.cells P.scOs (padded C.I P.ims) q)
    (if C.dipole then some (dipoleCorrection P.erfc P.ions C.D.lam q) else none) P.asr (v.map fun u => gammaCorrection P.ions u)
  let d := P.heevd (eighReads M)
  let e := fun s k : Fin (C.I.n * 3) => cAt d.evecs (s * (3 * C.I.n) + k)
  if d.info ≠ 0 then .error .valueError else
  .ok ⟨fun s => freqOf (d.evals s), e,
    modeGradients P.w (fun s => d.evals s) e fun dd => dynGrad P.cv P.fcw P.cells P.scOs (padded C.I P.ims) q dd⟩

/-- A row of C's arrays holds what Python has computed. -/
structure SameAs (C : Inputs) (r : Row) (py : PyRow C.I.n) : Prop where
  freqs : ∀ s : Fin (C.I.n * 3), r.freqs s = py.freqs s
  evecs : C.evecs = true → ∀ s k : Fin (C.I.n * 3), cAt r.dmat (s * (3 * C.I.n) + k) = py.evecs s k
  grads : C.grad = true → ∀ (s : Fin (C.I.n * 3)) (d : Fin 3), cAt r.modeg (s * 3 + d) = py.grads s d

/-- Conditions on a q-point: with dipole corrections no coordinate is a half, with LO-TO splitting a gamma point is exactly a
lattice vector, and for gradients the gradient of the dynamical matrix is Hermitian. -/
structure Fine (C : Inputs) (P : Python C) (q : V3 ℝ) : Prop where
  half : C.dipole = true → NotHalf q
  gamma : C.splitting = true → isGamma q = true → ∃ G : V3 ℤ, q = castV ℝ G
  grad : C.grad = true → ∀ d k l, dynGrad P.cv P.fcw P.cells P.scOs (padded C.I P.ims) q d k l
    = star (dynGrad P.cv P.fcw P.cells P.scOs (padded C.I P.ims) q d l k)

theorem idx_lt {n : Nat} (k l : Fin (n * 3)) : (k : Nat) * (3 * n) + l < 9 * n * n := by
  rw [← elemIdx_fin]; exact CExt.elemIdx_lt k.divNat.2 k.modNat.2 l.divNat.2 l.modNat.2

theorem row_same (C : Inputs) (P : Python C) (H : Matches C P) (i : Nat) (b : Buffers) {q : V3 ℝ} {v : Option (V3 ℝ)}
    (hq : Holds (C.rqpts i) q) (hv : HoldsOpt (dirOf C i) v) (hf : Fine C P q) (hvs : v.isSome → C.splitting = true ∧ isGamma q = true)
    (py : PyRow C.I.n) (hpy : pyAt C P q v = .ok py) : SameAs C (body C i zeroRow b).1 py := by
  rw [body_eq]
  have hup := C52_upper_partial H.layout H.atoms C.dipole C.grad H.dipoles H.det hq hf.half H.asr H.noAsr H.symmetric hv
    (fun h => ⟨H.splitting (hvs h).1, hf.gamma (hvs h).1 (hvs h).2⟩) H.weights
    (if C.evecs then fun _ => 0 else b.dmatPerQ) b.dmatGrad b.corr
  have hgr : C.grad = true → ∀ (k l : Fin (C.I.n * 3)) (d : Fin 3),
      cAt (matrixAtQ C.I C.D C.dipole C.grad C.asr (dirOf C i) C.w (C.rqpts i)
        (if C.evecs then fun _ => 0 else b.dmatPerQ) b.dmatGrad b.corr).2 ((k * (3 * C.I.n) + l) * 3 + d)
      = dynGrad P.cv P.fcw P.cells P.scOs (padded C.I P.ims) q d k l * (P.w k l : ℝ) := by
    intro hg k l d
    unfold matrixAtQ
    simp only [hg, if_true]
    rw [cAt_massWeight6 _ _ _ (idx_lt k l) d.2, H.weights, C52_gradient H.layout hq]
    split
    · rfl
    · rw [← hf.grad hg]
  generalize matrixAtQ C.I C.D C.dipole C.grad C.asr (dirOf C i) C.w (C.rqpts i)
        (if C.evecs then fun _ => 0 else b.dmatPerQ) b.dmatGrad b.corr = m at hup hgr ⊢
  have hz : C.zheevd (firstOf (elems C) m.1) = P.heevd (eighReads (weighted P.w (dynMat P.fcw P.cells P.scOs (padded C.I P.ims) q)
    (if C.dipole then some (dipoleCorrection P.erfc P.ions C.D.lam q) else none) P.asr
    (v.map fun u => gammaCorrection P.ions u))) := by
    rw [H.lapack]
    congr 1
    funext r c
    rw [← hup r c]
    have h1 := idx_lt r c
    have h2 := idx_lt c r
    have he : elems C = 2 * (9 * C.I.n * C.I.n) := by unfold elems; ring
    unfold zheevdReads firstOf
    rw [he]
    split
    · rw [if_pos (by omega)]
    · split
      · rw [if_pos (by omega), if_pos (by omega)]
      · rw [if_pos (by omega), if_pos (by omega)]
  unfold pyAt at hpy
  simp only at hpy
  rw [← hz] at hpy
  split at hpy
  · cases hpy
  have hpy := Except.ok.inj hpy
  subst hpy
  have hfr : ∀ s : Fin (C.I.n * 3), (finish C m).freqs s = freqOf ((C.zheevd (firstOf (elems C) m.1)).evals s) :=
    fun s => (finish_values C m).2 s (by have := s.2; omega)
  have hev : ∀ s k : Fin (C.I.n * 3), cAt (diagonalise C m.1 zeroRow.freqs).1 (s * (3 * C.I.n) + k)
      = cAt (C.zheevd (firstOf (elems C) m.1)).evecs (s * (3 * C.I.n) + k) := by
    intro s k
    have h1 := idx_lt s k
    have he : elems C = 2 * (9 * C.I.n * C.I.n) := by unfold elems; ring
    unfold cAt diagonalise overwrite
    simp only
    rw [he, if_pos (by omega), if_pos (by omega)]
  refine ⟨hfr, fun hc s k => ?_, fun hc s d => ?_⟩
  · unfold finish
    simp only [hc, if_true]
    exact hev s k
  · have := C52_mode_gradients C.I.n (finish C m).freqs (diagonalise C m.1 zeroRow.freqs).1 m.2 zeroRow.modeg
      (fun s k => cAt (C.zheevd (firstOf (elems C) m.1)).evecs (s * (3 * C.I.n) + k))
      (fun s => (C.zheevd (firstOf (elems C) m.1)).evals s) P.w
      (fun dd => dynGrad P.cv P.fcw P.cells P.scOs (padded C.I P.ims) q dd) hfr hev (fun k l d => hgr hc k l d) s d
    have hz0 : cAt zeroRow.modeg (s * 3 + d) = 0 := by
      unfold cAt zeroRow
      rfl
    rw [hz0, zero_add] at this
    unfold finish
    simp only [hc, if_true]
    exact this

theorem evalPoint_gamma (reduce : Bool) (q : V3 ℝ)
    (h : reduce = true ∨ (isGamma q = true → ∃ G : V3 ℤ, q = castV ℝ G)) (hg : isGamma (evalPoint reduce q) = true) :
    ∃ G : V3 ℤ, evalPoint reduce q = castV ℝ G := by
  rw [isGamma_evalPoint] at hg
  unfold evalPoint
  cases reduce with
  | true => exact ⟨⟨0, 0, 0⟩, by simp [hg, castV]⟩
  | false => simpa using (h.resolve_left (by simp)) hg

/-- **C124** For every list of q-points, with every combination of options, and however the q-points are distributed over
threads (`rows` are rows that some thread has stored), the arrays filled by C, indexed by the numbers of the reduced
q-points, hold at each position what the Python code computes, provided that LAPACK does not fail. *Missing:* with dipole
corrections, coordinates that are exactly a half (C and Python round them differently) and dielectric constants for which
the C determinant is wrong (`C53_det_wrong`); with LO-TO splitting and `reduce_qpts=False`, gamma points that are not exactly
lattice vectors; races between threads (`C54_race_wrong_direction`). -/
theorem C124_results_partial (C : Inputs) (P : Python C) (H : Matches C P) (reduce : Bool) {qs rq dirs : List (V3 ℝ)}
    {qi : List Nat} (h : Passed C reduce qs rq qi dirs)
    (hhalf : C.dipole = true → ∀ q ∈ qs, NotHalf (evalPoint reduce q))
    (hgamma : C.splitting = true → reduce = true ∨ ∀ q ∈ qs, isGamma q = true → ∃ G : V3 ℤ, q = castV ℝ G)
    (hgrad : C.grad = true → ∀ q ∈ qs, ∀ d k l, dynGrad P.cv P.fcw P.cells P.scOs (padded C.I P.ims) (evalPoint reduce q) d k l
      = star (dynGrad P.cv P.fcw P.cells P.scOs (padded C.I P.ims) (evalPoint reduce q) d l k))
    (rows : Nat → Row) (hrows : ∀ i < rq.length, ∃ todo b, (i, rows i) ∈ run C todo b) :
    ∃ res : List (Except Err (PyRow C.I.n)), atQpts reduce C.splitting qs (pyAt C P) = .ok res ∧ res.length = qs.length ∧ qi.length = qs.length ∧
      ∀ (p : Nat) (r : PyRow C.I.n), res[p]? = some (.ok r) → ∃ i, qi[p]? = some i ∧ i < rq.length ∧ SameAs C (rows i) r := by
  have hg := reduceQ_good reduce C.splitting qs
  rw [h.reduced] at hg
  dsimp only at hg
  refine ⟨_, C45_results reduce C.splitting qs (pyAt C P), by simp, hg.len, ?_⟩
  intro p r hr
  rw [List.getElem?_map] at hr
  obtain ⟨p', hp', hr'⟩ := Option.map_eq_some_iff.1 hr
  obtain ⟨hlt, hpe⟩ := List.getElem?_eq_some_iff.1 hp'
  rw [List.getElem_range] at hpe
  subst hpe
  rw [List.length_range] at hlt
  have hqi : p < qi.length := by rw [hg.len]; exact hlt
  obtain ⟨h1, h2, h3⟩ := C124_direction C reduce h p hlt
  refine ⟨qi.getD p 0, by rw [List.getElem?_eq_getElem hqi, List.getD_eq_getElem _ _ hqi], h1, ?_⟩
  have hmem : qs.getD p zeroV ∈ qs := by rw [List.getD_eq_getElem _ _ hlt]; exact List.getElem_mem hlt
  obtain ⟨todo, b, hrun⟩ := hrows _ h1
  obtain ⟨r', hr1, hs⟩ := (C120_alone C H.atoms H.splitting todo b b).2 _ _ hrun
  have he : r' = (body C (qi.getD p 0) zeroRow b).1 := by
    have := congrArg (fun l : List (Nat × Row) => l.map Prod.snd) hr1
    simpa [run] using this.symm
  have key := row_same C P H (qi.getD p 0) b h2 h3 ⟨fun hd => hhalf hd _ hmem,
    fun hsp hgm => evalPoint_gamma reduce _ ((hgamma hsp).imp id fun hh => hh _ hmem) hgm, fun hgd => hgrad hgd _ hmem⟩
    (by
      intro hv
      unfold pathDir at hv
      split at hv
      · rename_i hc
        rw [Bool.and_eq_true] at hc
        exact ⟨hc.1, by rw [isGamma_evalPoint]; exact hc.2⟩
      · cases hv) r hr'
  rw [← he] at key
  have hlt9 : ∀ s k : Fin (C.I.n * 3), (s : Nat) * (3 * C.I.n) + k < 9 * C.I.n * C.I.n := fun s k => idx_lt s k
  refine ⟨fun s => ?_, fun hc s k => ?_, fun hc s d => ?_⟩
  · rw [hs.freqs s (by have := s.2; omega), key.freqs]
  · rw [← key.evecs hc]
    have := hlt9 s k
    have e : 2 * 9 * C.I.n * C.I.n = 2 * (9 * C.I.n * C.I.n) := by ring
    unfold cAt
    rw [hs.dmat hc _ (by omega), hs.dmat hc _ (by omega)]
  · rw [← key.grads hc]
    have := s.2
    have := d.2
    unfold cAt
    rw [hs.modeg _ (by omega), hs.modeg _ (by omega)]

/-- The three coordinates as an array. -/
def memOf (v : V3 ℝ) : Mem := fun k => if k = 0 then v.x else if k = 1 then v.y else v.z

theorem holds_memOf (v : V3 ℝ) : Holds (memOf v) v := ⟨rfl, rfl, rfl⟩

theorem diel_cast {a b : Nat} (h : a = b) (o : Ions b) : (h ▸ o : Ions a).diel = o.diel := by subst h; rfl

/-- For all ions, force constants, weights, images within range and q-points there are arrays as required, with dipole
corrections if the determinant is right for the dielectric constants, and with LO-TO splitting; what holds of the data
(`Q`) holds of those of Python. -/
theorem exists_inputs (N n : Nat) (cv : M3 ℝ) (fcw : Fin N → Mat n ℝ) (cells : Fin N → V3 ℤ) (scOs : List (V3 ℤ))
    (ims : Fin N → Fin n → Fin n → List Nat) (maxIm : Nat) (hle : ∀ c i j, (ims c i j).length ≤ maxIm)
    (hr : ∀ c i j, ∀ m ∈ ims c i j, m < scOs.length) (erfc : ℝ → ℝ) (o : Ions n) (lam : ℝ) (W : Mat n ℝ)
    (hdet : o.diel 0 1 * (o.diel 1 0 * o.diel 2 2 - o.diel 1 2 * o.diel 2 0) = 0)
    (reduce grad evecs : Bool) (qs : List (V3 ℝ))
    (heevd : (Fin (n * 3) → Fin (n * 3) → ℂ) → Diag)
    (Q : ∀ N n : Nat, M3 ℝ → (Fin N → Mat n ℝ) → (Fin N → V3 ℤ) → List (V3 ℤ) → (Fin N → Fin n → Fin n → List Nat) → Prop)
    (hQ : Q N n cv fcw cells scOs ims) :
    ∃ (C : Inputs) (P : Python C) (rq dirs : List (V3 ℝ)) (qi : List Nat), C.I.n = n ∧ C.dipole = true ∧ C.splitting = true ∧
      C.grad = grad ∧ C.evecs = evecs ∧ Q _ _ P.cv P.fcw P.cells P.scOs P.ims ∧ Matches C P ∧
      Passed C reduce qs rq qi dirs := by
  obtain ⟨I, hN, hn, -, L⟩ := exists_layout N n cv fcw cells scOs ims maxIm hle hr
  obtain ⟨D, hD, -, LD⟩ := exists_dipLayout n erfc o lam
  obtain ⟨w, hw⟩ := exists_array (fun x : Fin (n * 3) × Fin (n * 3) => x.1 * (3 * n) + x.2)
    (by
      rintro ⟨k, l⟩ ⟨k', l'⟩ e
      obtain ⟨e, h2⟩ := div_unique (by have := l.2; omega) (by have := l'.2; omega) e
      exact Prod.ext (Fin.ext e) (Fin.ext h2)) (fun x => W x.1 x.2)
  subst hN hn
  rcases hrq : reduceQ reduce true qs with ⟨rq, qi⟩
  obtain ⟨dirs, hd, -⟩ := loopDir_spec reduce true qs rq qi hrq
  let C : Inputs := ⟨I, D, true, true, grad, evecs, none, w, fun i => memOf (rq.getD i zeroV), whereGamma rq,
    fun k => memOf (dirs.getD k.toNat zeroV), fun m => heevd fun r c => zheevdReads (3 * I.n) m r c⟩
  let P : Python C := ⟨cv, fcw, cells, scOs, ims, erfc, o, none, W, heevd⟩
  refine ⟨C, P, rq, dirs, qi, rfl, rfl, rfl, rfl, rfl, hQ, ⟨hD, fun _ => rfl, L, fun _ => LD, fun _ => ?_, by simp [P], fun _ => rfl,
    by simp [P], fun k l => hw (k, l), fun m => rfl⟩, ⟨hrq, hd, fun i _ => holds_memOf _, rfl, fun k _ => holds_memOf _⟩⟩
  have hdiel := LD.diel
  rw [diel_cast hD o] at hdiel
  exact (C53_det_partial _ _ hdiel).2 hdet

/-- Two atoms with charges, a path through gamma with an equivalent point, and eigenvectors. -/
example (erfc : ℝ → ℝ) (heevd : (Fin (2 * 3) → Fin (2 * 3) → ℂ) → Diag) :
    ∃ (C : Inputs) (P : Python C) (rq dirs : List (V3 ℝ)) (qi : List Nat), C.I.n = 2 ∧ C.dipole = true ∧ C.splitting = true ∧
      C.grad = false ∧ C.evecs = true ∧ Matches C P ∧
      Passed C true [⟨1 / 4, 0, 0⟩, ⟨0, 0, 0⟩, ⟨0, 1 / 3, 0⟩, ⟨5 / 4, 0, 0⟩] rq qi dirs := by
  obtain ⟨C, P, rq, dirs, qi, h1, h2, h3, h4, h5, -, h6, h7⟩ := exists_inputs 1 2 ⟨⟨1, 0, 0⟩, ⟨0, 1, 0⟩, ⟨0, 0, 1⟩⟩ (fun _ k l => if k = l then 2 else -1) (fun _ => ⟨0, 0, 0⟩) [⟨0, 0, 0⟩]
    (fun _ _ _ => [0]) 1 (by simp) (by simp) erfc
    ⟨⟨⟨1, 0, 0⟩, ⟨0, 1, 0⟩, ⟨0, 0, 1⟩⟩, ![⟨0, 0, 0⟩, ⟨1 / 2, 1 / 3, 1 / 2⟩],
      ![fun a b => if a = b then 1 else 0, fun a b => if a = b then -1 else 0], !![2, 0, 0; 0, 3, 0; 0, 0, 5]⟩ 1
    (fun _ _ => 1) (by simp) true false true [⟨1 / 4, 0, 0⟩, ⟨0, 0, 0⟩, ⟨0, 1 / 3, 0⟩, ⟨5 / 4, 0, 0⟩] heevd
    (fun _ _ _ _ _ _ _ => True) trivial
  exact ⟨C, P, rq, dirs, qi, h1, h2, h3, h4, h5, h6, h7⟩

end Euphonic.CLoop
