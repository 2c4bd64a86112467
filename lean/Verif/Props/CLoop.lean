import Verif.Model.CLoop
import Verif.Lemmas.CExt
import Verif.Props.CMatrix

/-!
# C120, C121: q-points computed by the same thread, and failures of the diagonalisation
-/

set_option autoImplicit false

namespace Euphonic.CLoop

open Euphonic.CExt

/-- Two rows of results are the same: frequencies, mode gradients, what is printed, and, if they are kept, eigenvectors. -/
structure SameRow (C : Inputs) (r r' : Row) : Prop where
  freqs : ∀ i < 3 * C.I.n, r.freqs i = r'.freqs i
  modeg : ∀ k < 2 * 9 * C.I.n, r.modeg k = r'.modeg k
  dmat : C.evecs = true → ∀ k < 2 * 9 * C.I.n * C.I.n, r.dmat k = r'.dmat k
  printed : r.printed = r'.printed

/-! ## Arrays that agree up to a size -/

def Agree (s : Nat) (m m' : Mem) : Prop := ∀ k < s, m k = m' k

theorem Agree.refl (s : Nat) (m : Mem) : Agree s m m := fun _ _ => rfl

theorem addTo_agree {s : Nat} {m m' : Mem} (h : Agree s m m') (k : Nat) (v : ℝ) : Agree s (addTo m k v) (addTo m' k v) := by
  intro p hp
  by_cases hk : p = k
  · subst hk; simp [addTo, h p hp]
  · simp [addTo, hk, h p hp]

theorem setAt_agree {s : Nat} {m m' : Mem} (h : Agree s m m') (k : Nat) {v v' : ℝ} (hv : k < s → v = v') :
    Agree s (setAt m k v) (setAt m' k v') := by
  intro p hp
  by_cases hk : p = k
  · subst hk; simp [setAt, hv hp]
  · simp [setAt, hk, h p hp]

theorem clear_agree (s : Nat) (m m' : Mem) : Agree s (clear s m) (clear s m') := by
  intro p hp; simp [clear, hp]

theorem loop_rel {σ : Type} (R : σ → σ → Prop) (lo hi : Nat) (f g : Nat → σ → σ)
    (h : ∀ k, lo ≤ k → k < hi → ∀ s s', R s s' → R (f k s) (g k s')) (s s' : σ) (h0 : R s s') :
    R (loop lo hi f s) (loop lo hi g s') := by
  unfold loop
  have key : ∀ l : List Nat, (∀ k ∈ l, lo ≤ k ∧ k < hi) → ∀ s s', R s s' →
      R (l.foldl (fun s k => f k s) s) (l.foldl (fun s k => g k s) s') := by
    intro l
    induction l with
    | nil => intro _ s s' h; exact h
    | cons k l ih =>
      intro hl s s' hs
      exact ih (fun k hk => hl k (List.mem_cons_of_mem _ hk)) _ _ (h k (hl k (by simp)).1 (hl k (by simp)).2 _ _ hs)
  refine key _ (fun k hk => ?_) _ _ h0
  rw [List.mem_range'_1] at hk
  omega

theorem elemIdx_lt {n i ii j jj : Nat} (hi : i < n) (hj : j < n) (hii : ii < 3) (hjj : jj < 3) :
    elemIdx n i ii j jj < 9 * n * n := by
  have h1 : (3 * i + ii + 1) * (3 * n) ≤ 3 * n * (3 * n) := Nat.mul_le_mul_right _ (by omega)
  have e1 : (3 * i + ii + 1) * (3 * n) = (3 * i + ii) * 3 * n + 3 * n := by ring
  have e2 : 3 * n * (3 * n) = 9 * n * n := by ring
  unfold elemIdx
  omega

/-! ## The matrix -/

theorem dynLoops_agree (I : DynIn) (grad : Bool) (qpt : Mem) (S G : Nat) (s s' : Mem × Mem)
    (h : Agree S s.1 s'.1 ∧ (grad = true → Agree G s.2 s'.2)) :
    Agree S (dynLoops I grad qpt s).1 (dynLoops I grad qpt s').1 ∧
      (grad = true → Agree G (dynLoops I grad qpt s).2 (dynLoops I grad qpt s').2) := by
  unfold dynLoops
  refine loop_rel (fun s s' : Mem × Mem => Agree S s.1 s'.1 ∧ (grad = true → Agree G s.2 s'.2)) _ _ _ _
    (fun i _ _ => loop_rel _ _ _ _ _ fun j _ _ => loop_rel _ _ _ _ _ fun nc _ _ => loop_rel _ _ _ _ _ fun ii _ _ =>
      loop_rel _ _ _ _ _ fun jj _ _ => ?_) _ _ h
  rintro s s' ⟨h1, h2⟩
  refine ⟨addTo_agree (addTo_agree h1 _ _) _ _, fun hg => ?_⟩
  simp only [elemStep, hg, if_true]
  refine loop_rel (Agree G) _ _ _ _ (fun k _ _ m m' hm => ?_) _ _ (h2 hg)
  exact addTo_agree (addTo_agree hm _ _) _ _

theorem fillLower_agree (n : Nat) (g g' : Mem) (h : Agree (3 * 2 * 9 * n * n) g g') :
    Agree (3 * 2 * 9 * n * n) (fillLower n g) (fillLower n g') := by
  unfold fillLower
  refine loop_rel (Agree _) _ _ _ _ (fun i _ hi => loop_rel _ _ _ _ _ fun j _ hj => loop_rel _ _ _ _ _ fun ii _ hii =>
      loop_rel _ _ _ _ _ fun jj _ hjj => loop_rel _ _ _ _ _ fun k _ hk => ?_) _ _ h
  intro m m' hm
  have hb := elemIdx_lt (n := n) (show j < n by omega) hi hjj hii
  have e : 3 * 2 * 9 * n * n = 6 * (9 * n * n) := by ring
  have hm1 : Agree (3 * 2 * 9 * n * n) (setAt m (6 * elemIdx n i ii j jj + 2 * k) (m (6 * elemIdx n j jj i ii + 2 * k)))
      (setAt m' (6 * elemIdx n i ii j jj + 2 * k) (m' (6 * elemIdx n j jj i ii + 2 * k))) :=
    setAt_agree hm _ fun _ => hm _ (by omega)
  exact setAt_agree hm1 _ fun _ => by rw [hm1 _ (by omega)]

theorem calcDynMat_agree (I : DynIn) (grad : Bool) (qpt d d' g g' : Mem) :
    Agree (2 * 9 * I.n * I.n) (calcDynMat I grad qpt d g).1 (calcDynMat I grad qpt d' g').1 ∧
      (grad = true → Agree (3 * 2 * 9 * I.n * I.n) (calcDynMat I grad qpt d g).2 (calcDynMat I grad qpt d' g').2) := by
  have h := dynLoops_agree I grad qpt (2 * 9 * I.n * I.n) (3 * 2 * 9 * I.n * I.n)
    (clear (2 * 9 * I.n * I.n) d, if grad then clear (3 * 2 * 9 * I.n * I.n) g else g)
    (clear (2 * 9 * I.n * I.n) d', if grad then clear (3 * 2 * 9 * I.n * I.n) g' else g')
    ⟨clear_agree _ _ _, fun hg => by simp only [hg, if_true]; exact clear_agree _ _ _⟩
  refine ⟨h.1, fun hg => ?_⟩
  have h2 := h.2 hg
  simp only [calcDynMat, hg, if_true] at h2 ⊢
  exact fillLower_agree _ _ _ h2

theorem addArrays_agree {S : Nat} {a a' d d' : Mem} (ha : Agree S a a') (hd : Agree S d d') :
    Agree S (addArrays S a d) (addArrays S a' d') := by
  unfold addArrays
  refine loop_rel (Agree S) _ _ _ _ (fun i _ hi m m' hm => ?_) _ _ hd
  rw [ha i hi]
  exact addTo_agree hm _ _

theorem bornSum_agree (D : DipIn) {c c' : Mem} (h : Agree (2 * 9 * D.n * D.n) c c') {i j : Nat} (hi : i < D.n) (hj : j < D.n)
    (a b : Nat) {part : Nat} (hp : part < 2) : bornSum D c i j a b part = bornSum D c' i j a b part := by
  unfold bornSum
  refine loop_rel (fun x y : ℝ => x = y) _ _ _ _ (fun aa _ haa => loop_rel _ _ _ _ _ fun bb _ hbb => ?_) _ _ rfl
  rintro x _ rfl
  have hb := elemIdx_lt hi hj haa hbb
  have e : 2 * 9 * D.n * D.n = 2 * (9 * D.n * D.n) := by ring
  dsimp only
  rw [h _ (by omega)]

theorem calcDipole_agree (D : DipIn) (qpt c c' : Mem) :
    Agree (2 * 9 * D.n * D.n) (calcDipole D qpt c) (calcDipole D qpt c') := by
  have e : 2 * 9 * D.n * D.n = 2 * (9 * D.n * D.n) := by ring
  unfold calcDipole
  generalize (fun a => qpt a - cround (qpt a)) = qn
  have h1 : Agree (2 * 9 * D.n * D.n) (realLoops D qn (clear (2 * 9 * D.n * D.n) c)).1
      (realLoops D qn (clear (2 * 9 * D.n * D.n) c')).1 := by
    unfold realLoops
    have both : ∀ x y : Mem × Nat, (Agree (2 * 9 * D.n * D.n) x.1 y.1 ∧ x.2 = y.2) → Agree (2 * 9 * D.n * D.n) x.1 y.1 :=
      fun _ _ h => h.1
    apply both
    refine loop_rel (fun s s' : Mem × Nat => Agree (2 * 9 * D.n * D.n) s.1 s'.1 ∧ s.2 = s'.2) _ _ _ _
      (fun nc _ _ => loop_rel _ _ _ _ _ fun i _ _ => loop_rel _ _ _ _ _ fun j _ _ => loop_rel _ _ _ _ _ fun a _ _ =>
        loop_rel _ _ _ _ _ fun b _ _ => ?_) _ _ ⟨clear_agree _ _ _, rfl⟩
    rintro ⟨s, p⟩ ⟨s', p'⟩ ⟨hs, hp⟩
    simp only at hs hp
    subst hp
    exact ⟨addTo_agree (addTo_agree hs _ _) _ _, rfl⟩
  have h2 : Agree (2 * 9 * D.n * D.n)
      (multiplyArray (2 * 9 * D.n * D.n) (D.lam ^ 3 / √(detArray D.diel)) (realLoops D qn (clear (2 * 9 * D.n * D.n) c)).1)
      (multiplyArray (2 * 9 * D.n * D.n) (D.lam ^ 3 / √(detArray D.diel)) (realLoops D qn (clear (2 * 9 * D.n * D.n) c')).1) := by
    unfold multiplyArray
    refine loop_rel (Agree _) _ _ _ _ (fun i _ hi m m' hm => ?_) _ _ h1
    exact setAt_agree hm _ fun _ => by rw [hm i hi]
  have h3 : ∀ off m m', Agree (2 * 9 * D.n * D.n) m m' →
      Agree (2 * 9 * D.n * D.n) (recipLoops D qn off m) (recipLoops D qn off m') := by
    intro off m m' hm
    unfold recipLoops
    refine loop_rel (Agree _) _ _ _ _ (fun ng _ _ => loop_rel _ _ _ _ _ fun i _ _ => loop_rel _ _ _ _ _ fun j _ _ =>
      loop_rel _ _ _ _ _ fun a _ _ => loop_rel _ _ _ _ _ fun b _ _ m m' hm => ?_) _ _ hm
    exact addTo_agree (addTo_agree hm _ _) _ _
  have h4 : ∀ m m', Agree (2 * 9 * D.n * D.n) m m' → Agree (2 * 9 * D.n * D.n) (bornLoops D m) (bornLoops D m') := by
    intro m m' hm
    unfold bornLoops
    refine loop_rel (Agree _) _ _ _ _ (fun i _ hi m m' hm => ?_) _ _ hm
    refine loop_rel (Agree _) _ _ _ _ (fun a _ _ => loop_rel _ _ _ _ _ fun b _ _ m m' hm => ?_) _ _ ?_
    · exact addTo_agree (addTo_agree hm _ _) _ _
    refine loop_rel (Agree _) _ _ _ _ (fun j _ hj m m' hm => ?_) _ _ hm
    refine loop_rel (Agree _) _ _ _ _ (fun a _ _ => loop_rel _ _ _ _ _ fun b _ _ p p' hp => ?_) _ _ hm
    exact setAt_agree (setAt_agree hp _ fun _ => bornSum_agree D hm hi hj a b (by omega)) _
      fun _ => bornSum_agree D hm hi hj a b (by omega)
  exact h4 _ _ (h3 _ _ _ h2)

theorem calcGamma_agree (D : DipIn) (dir : Mem) {c c' : Mem} (h : Agree (2 * 9 * D.n * D.n) c c') :
    Agree (2 * 9 * D.n * D.n) (calcGamma D dir c) (calcGamma D dir c') := by
  unfold calcGamma
  split
  · exact clear_agree _ _ _
  · refine loop_rel (Agree _) _ _ _ _ (fun i _ _ => loop_rel _ _ _ _ _ fun j _ _ => loop_rel _ _ _ _ _ fun a _ _ =>
      loop_rel _ _ _ _ _ fun b _ _ m m' hm => ?_) _ _ h
    exact setAt_agree hm _ fun _ => rfl

theorem massWeight_agree (w : Mem) (n repeats : Nat) {m m' : Mem} (h : Agree (repeats * (9 * n * n)) m m') :
    Agree (repeats * (9 * n * n)) (massWeight w n repeats m) (massWeight w n repeats m') := by
  unfold massWeight
  refine loop_rel (Agree _) _ _ _ _ (fun i _ hi => loop_rel _ _ _ _ _ fun j _ hj m m' hm => ?_) _ _ h
  exact setAt_agree hm _ fun hk => by rw [hm _ hk]

theorem matrixAtQ_agree (I : DynIn) (D : DipIn) (hn : D.n = I.n) (dipole grad : Bool) (asr dir : Option Mem)
    (hdir : dir.isSome = true → dipole = true) (w qpt d d' g g' c c' : Mem) :
    Agree (2 * 9 * I.n * I.n) (matrixAtQ I D dipole grad asr dir w qpt d g c).1
        (matrixAtQ I D dipole grad asr dir w qpt d' g' c').1 ∧
      (grad = true → Agree (3 * 2 * 9 * I.n * I.n) (matrixAtQ I D dipole grad asr dir w qpt d g c).2
        (matrixAtQ I D dipole grad asr dir w qpt d' g' c').2) := by
  obtain ⟨h1, h2⟩ := calcDynMat_agree I grad qpt d d' g g'
  have hc : dipole = true → Agree (2 * 9 * I.n * I.n) (calcDipole D qpt c) (calcDipole D qpt c') := fun _ => by
    rw [← hn]; exact calcDipole_agree D qpt c c'
  constructor
  · have e : 2 * 9 * I.n * I.n = 2 * (9 * I.n * I.n) := by ring
    simp only [matrixAtQ]
    rw [e]
    refine massWeight_agree w I.n 2 ?_
    rw [← e]
    have hd1 : Agree (2 * 9 * I.n * I.n)
        (if dipole then addArrays (2 * 9 * I.n * I.n) (if dipole then calcDipole D qpt c else c) (calcDynMat I grad qpt d g).1
          else (calcDynMat I grad qpt d g).1)
        (if dipole then addArrays (2 * 9 * I.n * I.n) (if dipole then calcDipole D qpt c' else c') (calcDynMat I grad qpt d' g').1
          else (calcDynMat I grad qpt d' g').1) := by
      split
      · rename_i hp
        exact addArrays_agree (hc hp) h1
      · exact h1
    have hd2 : ∀ x x', Agree (2 * 9 * I.n * I.n) x x' → Agree (2 * 9 * I.n * I.n)
        (match asr with | some a => addArrays (2 * 9 * I.n * I.n) a x | none => x)
        (match asr with | some a => addArrays (2 * 9 * I.n * I.n) a x' | none => x') := by
      intro x x' hx
      cases asr with
      | none => exact hx
      | some a => exact addArrays_agree (Agree.refl _ _) hx
    have hd3 := hd2 _ _ hd1
    cases dir with
    | none => exact hd3
    | some v =>
      have hp := hdir rfl
      simp only [hp, if_true] at hd3 ⊢
      refine addArrays_agree ?_ hd3
      have := calcGamma_agree D v (c := calcDipole D qpt c) (c' := calcDipole D qpt c') (by rw [hn]; exact hc hp)
      rwa [hn] at this
  · intro hg
    have h2 := h2 hg
    have e : 3 * 2 * 9 * I.n * I.n = 6 * (9 * I.n * I.n) := by ring
    simp only [matrixAtQ, hg, if_true] at h2 ⊢
    rw [e] at h2 ⊢
    exact massWeight_agree w I.n 6 h2

/-! ## Mode gradients -/

theorem modeGradients_agree (n : Nat) {f f' v v' g g' m : Mem} (hf : Agree (3 * n) f f') (hv : Agree (2 * 9 * n * n) v v')
    (hg : Agree (3 * 2 * 9 * n * n) g g') : calcModeGradients n f v g m = calcModeGradients n f' v' g' m := by
  unfold calcModeGradients
  refine loop_rel (fun x y : Mem => x = y) _ _ _ _ (fun s _ hs => loop_rel _ _ _ _ _ fun i _ hi => loop_rel _ _ _ _ _ fun a _ ha =>
    loop_rel _ _ _ _ _ fun j _ hj => loop_rel _ _ _ _ _ fun b _ hb => loop_rel _ _ _ _ _ fun k _ hk => ?_) _ _ rfl
  rintro x _ rfl
  have hvec : ∀ j b : Nat, j < n → b < 3 → pairAt v (s * (2 * 3 * n) + 6 * j + 2 * b) = pairAt v' (s * (2 * 3 * n) + 6 * j + 2 * b) := by
    intro j b hj hb
    have h1 : (s + 1) * (2 * 3 * n) ≤ 3 * n * (2 * 3 * n) := Nat.mul_le_mul_right _ hs
    have e1 : (s + 1) * (2 * 3 * n) = s * (2 * 3 * n) + 6 * n := by ring
    have e2 : 3 * n * (2 * 3 * n) = 2 * 9 * n * n := by ring
    simp only [pairAt]
    rw [hv _ (by omega), hv _ (by omega)]
  have hgr : pairAt g (3 * (3 * i + a) * (2 * 3 * n) + 3 * (6 * j + 2 * b) + 2 * k)
      = pairAt g' (3 * (3 * i + a) * (2 * 3 * n) + 3 * (6 * j + 2 * b) + 2 * k) := by
    have h1 : (3 * i + a + 1) * (18 * n) ≤ 3 * n * (18 * n) := Nat.mul_le_mul_right _ (by omega)
    have e1 : (3 * i + a + 1) * (18 * n) = 3 * (3 * i + a) * (2 * 3 * n) + 18 * n := by ring
    have e2 : 3 * n * (18 * n) = 3 * 2 * 9 * n * n := by ring
    simp only [pairAt]
    rw [hg _ (by omega), hg _ (by omega)]
  simp only [hvec j b hj hb, hvec i a hi ha, hgr, hf s hs]

/-! ## One q-point -/

theorem firstOf_congr {s : Nat} {m m' : Mem} (h : Agree s m m') : firstOf s m = firstOf s m' := by
  funext k
  simp only [firstOf]
  split
  · exact h k ‹_›
  · rfl

/-- The matrix that is diagonalised for a q-point, computed with arrays full of zeros. -/
noncomputable def matrixOf (C : Inputs) (q : Nat) : Mem :=
  firstOf (elems C) (matrixAtQ C.I C.D C.dipole C.grad C.asr
    (if C.splitting && cIsGamma (C.rqpts q) then some (C.qDirs (qpos C q)) else none) C.w (C.rqpts q)
    (fun _ => 0) (fun _ => 0) (fun _ => 0)).1

/-- The part of the body after the matrix. -/
noncomputable def finish (C : Inputs) (m : Mem × Mem) : Row :=
  let d := diagonalise C m.1 zeroRow.freqs
  let freqs := evalsToFreqs C.I.n d.2.1
  ⟨freqs, if C.evecs then d.1 else zeroRow.dmat, if C.grad then calcModeGradients C.I.n freqs d.1 m.2 zeroRow.modeg else zeroRow.modeg,
    d.2.2⟩

/-- The direction of a q-point. -/
noncomputable def dirOf (C : Inputs) (q : Nat) : Option Mem :=
  if C.splitting && cIsGamma (C.rqpts q) then some (C.qDirs (qpos C q)) else none

theorem body_eq (C : Inputs) (q : Nat) (b : Buffers) : (body C q zeroRow b).1 = finish C
    (matrixAtQ C.I C.D C.dipole C.grad C.asr (dirOf C q) C.w (C.rqpts q)
      (if C.evecs then fun _ => 0 else b.dmatPerQ) b.dmatGrad b.corr) := rfl

theorem dirOf_dipole (C : Inputs) (hsp : C.splitting = true → C.dipole = true) (q : Nat) :
    (dirOf C q).isSome = true → C.dipole = true := by
  unfold dirOf
  split
  · rename_i h
    simp only [Bool.and_eq_true] at h
    exact fun _ => hsp h.1
  · simp

theorem finish_agree (C : Inputs) (e : Bool) (m m' : Mem × Mem) (h1 : Agree (elems C) m.1 m'.1)
    (h2 : C.grad = true → Agree (3 * 2 * 9 * C.I.n * C.I.n) m.2 m'.2) :
    (finish C m).printed = (finish { C with evecs := e } m').printed ∧
      (finish C m).freqs = (finish { C with evecs := e } m').freqs ∧
      (finish C m).modeg = (finish { C with evecs := e } m').modeg ∧
      (C.evecs = true → e = true → Agree (elems C) (finish C m).dmat (finish { C with evecs := e } m').dmat) := by
  have hf := firstOf_congr h1
  have hov : Agree (elems C) (overwrite (elems C) (C.zheevd (firstOf (elems C) m'.1)).evecs m.1)
      (overwrite (elems C) (C.zheevd (firstOf (elems C) m'.1)).evecs m'.1) := by
    intro k hk; simp [overwrite, hk]
  have he : elems { C with evecs := e } = elems C := rfl
  refine ⟨?_, ?_, ?_, ?_⟩
  · simp only [finish, diagonalise, he, hf]
  · simp only [finish, diagonalise, he, hf]
  · simp only [finish, diagonalise, he, hf]
    split
    · rename_i hg
      exact modeGradients_agree _ (Agree.refl _ _) hov (h2 hg)
    · rfl
  · intro hc hc'
    simp only [finish, diagonalise, hf, hc, hc', if_true]
    exact hov

theorem finish_values (C : Inputs) (m : Mem × Mem) :
    (finish C m).printed = (if (C.zheevd (firstOf (elems C) m.1)).info ≠ 0 then some (C.zheevd (firstOf (elems C) m.1)).info else none) ∧
      ∀ i < 3 * C.I.n, (finish C m).freqs i = DynMat.freqOf ((C.zheevd (firstOf (elems C) m.1)).evals i) := by
  refine ⟨rfl, fun i hi => ?_⟩
  simp only [finish, diagonalise]
  rw [C52_frequencies _ _ i hi]
  simp [overwrite, hi]

theorem body_agree (C : Inputs) (hn : C.D.n = C.I.n) (hsp : C.splitting = true → C.dipole = true) (e : Bool) (q : Nat)
    (b b' : Buffers) :
    (body C q zeroRow b).1.printed = (body { C with evecs := e } q zeroRow b').1.printed ∧
      (body C q zeroRow b).1.freqs = (body { C with evecs := e } q zeroRow b').1.freqs ∧
      (body C q zeroRow b).1.modeg = (body { C with evecs := e } q zeroRow b').1.modeg ∧
      (C.evecs = true → e = true → Agree (elems C) (body C q zeroRow b).1.dmat (body { C with evecs := e } q zeroRow b').1.dmat) := by
  rw [body_eq, body_eq]
  have h := matrixAtQ_agree C.I C.D hn C.dipole C.grad C.asr (dirOf C q) (dirOf_dipole C hsp q) C.w (C.rqpts q)
    (if C.evecs then fun _ => 0 else b.dmatPerQ) (if e then fun _ => 0 else b'.dmatPerQ) b.dmatGrad b'.dmatGrad b.corr b'.corr
  exact finish_agree C e _ _ h.1 h.2

/-! ## The properties -/

/-- **C120** The results of every q-point of a thread are those of a calculation of this q-point alone, whatever the arrays
of the thread contain from the beginning or from q-points before, and each q-point is done once, in order. -/
theorem C120_alone (C : Inputs) (hn : C.D.n = C.I.n) (hsp : C.splitting = true → C.dipole = true) (qs : List Nat)
    (b fresh : Buffers) :
    (run C qs b).map Prod.fst = qs ∧
      ∀ q r, (q, r) ∈ run C qs b → ∃ r', run C [q] fresh = [(q, r')] ∧ SameRow C r r' := by
  induction qs generalizing b with
  | nil => exact ⟨rfl, fun q r h => by simp [run] at h⟩
  | cons q0 qs ih =>
    obtain ⟨h1, h2⟩ := ih (body C q0 zeroRow b).2
    refine ⟨by simp [run, h1], fun q r h => ?_⟩
    rcases List.mem_cons.1 (show (q, r) ∈ (q0, (body C q0 zeroRow b).1) :: run C qs (body C q0 zeroRow b).2 from h) with h | h
    · obtain ⟨rfl, rfl⟩ := Prod.mk.inj h
      obtain ⟨a1, a2, a3, a4⟩ := body_agree C hn hsp C.evecs q b fresh
      exact ⟨_, rfl, fun i _ => congrFun a2 i, fun k _ => congrFun a3 k, fun he => a4 he he, a1⟩
    · exact h2 q r h

/-- **C120** Frequencies, mode gradients and messages do not depend on whether eigenvectors are kept. -/
theorem C120_eigenvectors_kept_or_not (C : Inputs) (hn : C.D.n = C.I.n) (hsp : C.splitting = true → C.dipole = true) (e : Bool)
    (q : Nat) (b b' : Buffers) : ∃ r r', run C [q] b = [(q, r)] ∧ run { C with evecs := e } [q] b' = [(q, r')] ∧
      r.freqs = r'.freqs ∧ r.modeg = r'.modeg ∧ r.printed = r'.printed := by
  obtain ⟨a1, a2, a3, _⟩ := body_agree C hn hsp e q b b'
  exact ⟨_, _, rfl, rfl, a2, a3, a1⟩

/-- **C121** If LAPACK does not fail for a q-point, its frequencies are those that Python computes from the same
eigenvalues and nothing is printed. *Missing:* an error if it fails, see `C121_failure_not_raised`. -/
theorem C121_diagonalised_partial (C : Inputs) (hn : C.D.n = C.I.n) (hsp : C.splitting = true → C.dipole = true) (qs : List Nat)
    (b : Buffers) (q : Nat) (r : Row) (h : (q, r) ∈ run C qs b) (hok : (C.zheevd (matrixOf C q)).info = 0) :
    r.printed = none ∧ ∃ f, pyFreqs C.I.n (C.zheevd (matrixOf C q)) = .ok f ∧ ∀ i < 3 * C.I.n, r.freqs i = f i := by
  obtain ⟨r', hr', hs⟩ := (C120_alone C hn hsp qs b ⟨fun _ => 0, fun _ => 0, fun _ => 0⟩).2 q r h
  have hv := finish_values C (matrixAtQ C.I C.D C.dipole C.grad C.asr (dirOf C q) C.w (C.rqpts q)
      (if C.evecs then fun _ => 0 else fun _ => 0) (fun _ => 0) (fun _ => 0))
  have e0 : (if C.evecs then (fun _ => 0 : Mem) else fun _ => 0) = fun _ => 0 := by split <;> rfl
  have er : r' = finish C (matrixAtQ C.I C.D C.dipole C.grad C.asr (dirOf C q) C.w (C.rqpts q)
      (if C.evecs then fun _ => 0 else fun _ => 0) (fun _ => 0) (fun _ => 0)) := by
    have := congrArg (fun l : List (Nat × Row) => l.map Prod.snd) hr'
    simpa [run, body_eq] using this.symm
  rw [← er, e0] at hv
  have em : firstOf (elems C) (matrixAtQ C.I C.D C.dipole C.grad C.asr (dirOf C q) C.w (C.rqpts q)
      (fun _ => 0) (fun _ => 0) (fun _ => 0)).1 = matrixOf C q := rfl
  rw [em, hok] at hv
  refine ⟨by rw [hs.printed, hv.1]; simp, _, if_neg (by simp [hok]), fun i hi => ?_⟩
  rw [hs.freqs i hi, hv.2 i hi, if_pos hi]

/-- **C121** *Violation:* if LAPACK fails for a q-point, Python raises an error, but the C code only prints a line and stores
what LAPACK left as frequencies of this q-point; the other q-points are not affected (`C120_alone`). -/
theorem C121_failure_not_raised (C : Inputs) (hn : C.D.n = C.I.n) (hsp : C.splitting = true → C.dipole = true) (qs : List Nat)
    (b : Buffers) (q : Nat) (hq : q ∈ qs) (hbad : (C.zheevd (matrixOf C q)).info ≠ 0) :
    pyFreqs C.I.n (C.zheevd (matrixOf C q)) = .error .valueError ∧
      ∃ r, (q, r) ∈ run C qs b ∧ r.printed = some (C.zheevd (matrixOf C q)).info ∧
        ∀ i < 3 * C.I.n, r.freqs i = DynMat.freqOf ((C.zheevd (matrixOf C q)).evals i) := by
  refine ⟨by simp [pyFreqs, hbad], ?_⟩
  obtain ⟨h1, h2⟩ := C120_alone C hn hsp qs b ⟨fun _ => 0, fun _ => 0, fun _ => 0⟩
  have hm : q ∈ (run C qs b).map Prod.fst := by rw [h1]; exact hq
  obtain ⟨⟨q', r⟩, hr, rfl⟩ := List.mem_map.1 hm
  refine ⟨r, hr, ?_⟩
  obtain ⟨r', hr', hs⟩ := h2 q' r hr
  have hv := finish_values C (matrixAtQ C.I C.D C.dipole C.grad C.asr (dirOf C q') C.w (C.rqpts q')
      (if C.evecs then fun _ => 0 else fun _ => 0) (fun _ => 0) (fun _ => 0))
  have e0 : (if C.evecs then (fun _ => 0 : Mem) else fun _ => 0) = fun _ => 0 := by split <;> rfl
  have er : r' = finish C (matrixAtQ C.I C.D C.dipole C.grad C.asr (dirOf C q') C.w (C.rqpts q')
      (if C.evecs then fun _ => 0 else fun _ => 0) (fun _ => 0) (fun _ => 0)) := by
    have := congrArg (fun l : List (Nat × Row) => l.map Prod.snd) hr'
    simpa [run, body_eq] using this.symm
  rw [← er, e0] at hv
  have em : firstOf (elems C) (matrixAtQ C.I C.D C.dipole C.grad C.asr (dirOf C q') C.w (C.rqpts q')
      (fun _ => 0) (fun _ => 0) (fun _ => 0)).1 = matrixOf C q' := rfl
  rw [em] at hv
  refine ⟨by rw [hs.printed, hv.1, if_pos hbad], fun i hi => ?_⟩
  rw [hs.freqs i hi, hv.2 i hi]

/-- One atom, with dipole corrections, splitting and gradients, arrays full of ones, and a LAPACK that fails if the first
element of the matrix is not zero. -/
noncomputable def exampleInputs : Inputs where
  I := ⟨1, 2, 1, fun _ => 1, fun _ => 0, fun k => k, fun _ => 0, fun k => k, fun k => k⟩
  D := ⟨1, fun _ => 1, fun _ => 1, fun _ => 0, fun _ => 1, fun _ => 1, fun _ => 1, fun _ => 0, 1, fun _ => 1, fun _ => 1, 2, fun _ => 0, 1⟩
  dipole := true
  splitting := true
  grad := true
  evecs := false
  asr := none
  w := fun _ => 1
  rqpts := fun q _ => q / 4
  splitIdx := [0]
  qDirs := fun _ _ => 1
  zheevd := fun m => ⟨m, m, if m 0 = 0 then 0 else 3⟩

example (b : Buffers) : (run exampleInputs [0, 3, 5] b).map Prod.fst = [0, 3, 5] ∧
    ∀ q r, (q, r) ∈ run exampleInputs [0, 3, 5] b → ∃ r', run exampleInputs [q] ⟨fun _ => 7, fun _ => 7, fun _ => 7⟩ = [(q, r')] ∧
      SameRow exampleInputs r r' :=
  C120_alone exampleInputs rfl (fun _ => rfl) _ b _

/-- The second q-point with a LAPACK that never fails: its frequencies are Python's. -/
example (b : Buffers) (r : Row) (h : (3, r) ∈ run { exampleInputs with zheevd := fun m => ⟨m, m, 0⟩ } [0, 3, 5] b) :
    r.printed = none :=
  (C121_diagonalised_partial { exampleInputs with zheevd := fun m => ⟨m, m, 0⟩ } rfl (fun _ => rfl) _ b 3 r h rfl).1

/-- With one that always fails. -/
example (b : Buffers) : ∃ r, (3, r) ∈ run { exampleInputs with zheevd := fun m => ⟨m, m, 7⟩ } [0, 3, 5] b ∧ r.printed = some 7 := by
  obtain ⟨_, r, h1, h2, _⟩ := C121_failure_not_raised { exampleInputs with zheevd := fun m => ⟨m, m, 7⟩ } rfl (fun _ => rfl)
    [0, 3, 5] b 3 (by decide) (by show (7 : ℤ) ≠ 0; decide)
  exact ⟨r, h1, h2⟩

end Euphonic.CLoop
