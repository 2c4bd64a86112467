import Verif.Props.Driver

/-! # C55-C57: caches, backends and options of `calculate_qpoint_phonon_modes` -/

set_option autoImplicit false
set_option linter.unusedSectionVars false

namespace Euphonic.Driver

open Euphonic.Lattice Euphonic.Phases

variable {K : Type} [Field K] [LinearOrder K] [IsStrictOrderedRing K] [FloorRing K]
variable {D I P F C R : Type}

/-! ## C57: dipole and splitting options -/

/-- Specification: whether the dipole correction applies. -/
def dipoleOn (m : Num K D I P F C R) (d : D) (a : Args K) : Bool := m.hasBorn d && a.dipole

/-- Specification: whether LO-TO splitting applies. -/
def splitOn (m : Num K D I P F C R) (d : D) (a : Args K) : Bool := m.hasBorn d && a.dipole && a.splitting

theorem flags_eq (b x y : Bool) : flags b x y = (b && x, b && x && y) := by
  cases b <;> cases x <;> cases y <;> rfl

/-- Specification of the q-points returned. -/
def outQpts (m : Num K D I P F C R) (d : D) (a : Args K) : List (V3 K) :=
  if splitOn m d a && a.insertGamma then doubled a.qpts else a.qpts

/-- Specification of the weights returned. -/
def outWeights (m : Num K D I P F C R) (d : D) (a : Args K) : Option (List K) :=
  if splitOn m d a && a.insertGamma then a.weights.map (shared a.qpts) else a.weights

/-- Specification of the force constants used. -/
def fcUsed (m : Num K D I P F C R) (d : D) (a : Args K) : F :=
  if a.asr = some .realspace then m.asrFc d else m.rawFc d

/-- Caches that agree with the attributes of the object. -/
def Valid (m : Num K D I P F C R) (d : D) (c : Caches K I P F) : Prop :=
  (∀ i, c.images = some i → i = m.images d)
  ∧ (∀ p x, c.dipole = some (p, x) → m.dipoleInit d p = .ok x)
  ∧ (∀ f, c.fcAsr = some f → f = m.asrFc d)

theorem useImages_valid (m : Num K D I P F C R) (d : D) (c : Caches K I P F) (h : Valid m d c) :
    (useImages m d c).1 = m.images d ∧ Valid m d (useImages m d c).2 := by
  unfold useImages
  split
  · rename_i i hi
    exact ⟨h.1 i hi, h⟩
  · exact ⟨rfl, ⟨fun i hi => by simpa using hi.symm, h.2.1, h.2.2⟩⟩

theorem useDipole_valid (m : Num K D I P F C R) (d : D) (b : Bool) (par : K) (c : Caches K I P F)
    (h : Valid m d c) :
    (useDipole m d b par c).1 = (if b then (m.dipoleInit d par).map some else .ok none)
      ∧ Valid m d (useDipole m d b par c).2 := by
  have hnew : (match m.dipoleInit d par with
      | .ok y => ((.ok (some y) : Except Err (Option P)), { c with dipole := some (par, y) })
      | .error e => (.error e, c)).1 = (m.dipoleInit d par).map some
      ∧ Valid m d (match m.dipoleInit d par with
      | .ok y => ((.ok (some y) : Except Err (Option P)), { c with dipole := some (par, y) })
      | .error e => (.error e, c)).2 := by
    cases hd : m.dipoleInit d par with
    | ok y =>
      refine ⟨rfl, h.1, ?_, h.2.2⟩
      intro p x hx
      simp only [Option.some.injEq, Prod.mk.injEq] at hx
      rw [← hx.1, ← hx.2, hd]
    | error e => exact ⟨rfl, h⟩
  unfold useDipole
  cases b with
  | false => exact ⟨rfl, h⟩
  | true =>
    simp only [if_true]
    split
    · rename_i p' x hx
      by_cases hp : par = p'
      · rw [if_pos hp]
        refine ⟨?_, h⟩
        rw [hp, h.2.1 p' x hx]
        rfl
      · rw [if_neg hp]
        exact hnew
    · exact hnew

theorem useFc_valid (m : Num K D I P F C R) (d : D) (asr : Option Asr) (c : Caches K I P F)
    (h : Valid m d c) :
    (useFc m d asr c).1 = (if asr = some .realspace then m.asrFc d else m.rawFc d)
      ∧ Valid m d (useFc m d asr c).2 := by
  unfold useFc
  split
  · split
    · rename_i f hf
      exact ⟨h.2.2 f hf, h⟩
    · exact ⟨rfl, h.1, h.2.1, fun f hf => by simpa using hf.symm⟩
  · exact ⟨rfl, h⟩

/-- Specification of the whole call, free of caches. -/
def callSpec (m : Num K D I P F C R) (s : Sys) (d : D) (a : Args K) :
    Except Err (Out K R) × List Warn :=
  if (a.weights.map List.length).getD a.qpts.length ≠ a.qpts.length then (.error .valueError, [])
  else
    match (if dipoleOn m d a then (m.dipoleInit d a.dipoleParameter).map some else .ok none) with
    | .error e => (.error e, [])
    | .ok p =>
      match chooseBackend s a.useC a.nThreads with
      | (.error e, w) => (.error e, w)
      | (.ok b, w) =>
        (.ok ⟨outQpts m d a, (List.range (outQpts m d a).length).map fun k =>
          m.at1 b d (m.images d) (fcUsed m d a) p
            (if a.asr = some .reciprocal then some (m.recipAsr d (m.images d) (fcUsed m d a) p) else none)
            a.gradients a.eigenvectors
            (evalPoint a.reduceQpts ((outQpts m d a).getD k ⟨0, 0, 0⟩))
            (pathDir (splitOn m d a) (outQpts m d a) k), outWeights m d a, b⟩, w)

theorem call_eq (m : Num K D I P F C R) (s : Sys) (d : D) (a : Args K) (c : Caches K I P F)
    (h : Valid m d c) :
    ((calculatePhonons m s d a c).1, (calculatePhonons m s d a c).2.2) = callSpec m s d a
      ∧ Valid m d (calculatePhonons m s d a c).2.1 := by
  have hgo : (a.weights.map List.length).getD a.qpts.length = a.qpts.length →
      ((calculatePhonons.go m s d a c).1, (calculatePhonons.go m s d a c).2.2) = callSpec m s d a
      ∧ Valid m d (calculatePhonons.go m s d a c).2.1 := by
    intro hw
    unfold calculatePhonons.go callSpec
    rw [if_neg (not_not.2 hw), flags_eq]
    dsimp only
    have hq : (if ((m.hasBorn d && a.dipole && a.splitting) && a.insertGamma) = true
        then Driver.insertGamma a.qpts a.weights else (a.qpts, a.weights))
        = (outQpts m d a, outWeights m d a) := by
      unfold outQpts outWeights splitOn
      by_cases hc : ((m.hasBorn d && a.dipole && a.splitting) && a.insertGamma) = true
      · rw [if_pos hc, if_pos hc, if_pos hc]
        cases haw : a.weights with
        | none => exact (C46_insert a.qpts (a.qpts.map fun _ => 0) (by simp)).2
        | some w =>
          rw [haw] at hw
          exact (C46_insert a.qpts w (by simpa using hw)).1
      · rw [if_neg hc, if_neg hc, if_neg hc]
    rw [hq]
    obtain ⟨hi, hv1⟩ := useImages_valid m d c h
    rcases hui : useImages m d c with ⟨i, c1⟩
    rw [hui] at hi hv1
    dsimp only at hi hv1 ⊢
    obtain ⟨hp, hv2⟩ := useDipole_valid m d (m.hasBorn d && a.dipole) a.dipoleParameter c1 hv1
    rcases hud : useDipole m d (m.hasBorn d && a.dipole) a.dipoleParameter c1 with ⟨p, c2⟩
    rw [hud] at hp hv2
    dsimp only at hp hv2
    have hp' : p = (if dipoleOn m d a = true then (m.dipoleInit d a.dipoleParameter).map some
        else .ok none) := hp
    rw [← hp']
    cases p with
    | error e => exact ⟨rfl, hv2⟩
    | ok p =>
      dsimp only
      obtain ⟨hf, hv3⟩ := useFc_valid m d a.asr c2 hv2
      rcases huf : useFc m d a.asr c2 with ⟨f, c3⟩
      rw [huf] at hf hv3
      dsimp only at hf hv3 ⊢
      have hf' : f = fcUsed m d a := hf
      rcases hcb : chooseBackend s a.useC a.nThreads with ⟨b, w⟩
      cases b with
      | error e => exact ⟨rfl, hv3⟩
      | ok b =>
        dsimp only
        rw [C45_results, hi, hf']
        exact ⟨rfl, hv3⟩
  unfold calculatePhonons
  cases haw : a.weights with
  | none =>
    exact hgo (by rw [haw]; rfl)
  | some w =>
    dsimp only
    by_cases hw : w.length = a.qpts.length
    · rw [if_neg (not_not.2 hw)]
      exact hgo (by rw [haw]; simpa using hw)
    · rw [if_pos hw]
      refine ⟨?_, h⟩
      unfold callSpec
      rw [haw, if_pos (by simpa using hw)]

theorem valid_empty (m : Num K D I P F C R) (d : D) : Valid m d Caches.empty :=
  ⟨fun _ h => by simp [Caches.empty] at h, fun _ _ h => by simp [Caches.empty] at h,
    fun _ h => by simp [Caches.empty] at h⟩

/-- **C57.** The dipole correction is used exactly if the object has Born charges and `dipole` is set; a
splitting direction is used exactly at gamma points if moreover `splitting` is set; gamma points are
inserted exactly if moreover `insert_gamma` is set. -/
theorem C57_options (m : Num K D I P F C R) (s : Sys) (d : D) (a : Args K) (c : Caches K I P F)
    (h : Valid m d c) (o : Out K R) (ho : (calculatePhonons m s d a c).1 = .ok o) :
    o.qpts = (if m.hasBorn d ∧ a.dipole ∧ a.splitting ∧ a.insertGamma then doubled a.qpts else a.qpts)
    ∧ o.results.length = o.qpts.length
    ∧ ∀ k (hk : k < o.qpts.length), ∃ (b : Backend) (p : Option P) (corr : Option C) (dir : Option (V3 K)),
        o.results[k]? = some (m.at1 b d (m.images d) (fcUsed m d a) p corr a.gradients a.eigenvectors
          (evalPoint a.reduceQpts o.qpts[k]) dir)
        ∧ (p.isSome = true ↔ m.hasBorn d = true ∧ a.dipole = true)
        ∧ (dir.isSome = true ↔ m.hasBorn d = true ∧ a.dipole = true ∧ a.splitting = true
            ∧ isGamma o.qpts[k] = true)
        ∧ (∀ x, p = some x → m.dipoleInit d a.dipoleParameter = .ok x)
        ∧ (corr.isSome = true ↔ a.asr = some .reciprocal) := by
  have h1 := (call_eq m s d a c h).1
  have h2 : (callSpec m s d a).1 = .ok o := by rw [← h1]; exact ho
  unfold callSpec at h2
  split at h2
  · cases h2
  · rcases hp : (if dipoleOn m d a = true then (m.dipoleInit d a.dipoleParameter).map some
        else (.ok none : Except Err (Option P))) with e | p
    · rw [hp] at h2
      cases h2
    · rw [hp] at h2
      dsimp only at h2
      rcases hcb : chooseBackend s a.useC a.nThreads with ⟨b, w⟩
      rw [hcb] at h2
      cases b with
      | error e => cases h2
      | ok b =>
        simp only [Except.ok.injEq] at h2
        subst h2
        dsimp only
        refine ⟨?_, by simp, ?_⟩
        · unfold outQpts splitOn
          simp only [Bool.and_eq_true, and_assoc]
        · intro k hk
          refine ⟨b, p, if a.asr = some .reciprocal then some (m.recipAsr d (m.images d) (fcUsed m d a) p)
            else none, pathDir (splitOn m d a) (outQpts m d a) k, ?_, ?_, ?_, ?_, ?_⟩
          · rw [List.getElem?_eq_getElem (by simpa using hk), List.getElem_map, List.getElem_range,
              List.getD_eq_getElem _ _ hk]
          · rw [← Bool.and_eq_true]
            change _ ↔ dipoleOn m d a = true
            by_cases hd : dipoleOn m d a = true
            · rw [if_pos hd] at hp
              cases hx : m.dipoleInit d a.dipoleParameter with
              | error e => rw [hx] at hp; cases hp
              | ok x =>
                rw [hx] at hp
                simp only [Except.map, Except.ok.injEq] at hp
                rw [← hp]
                simp [hd]
            · rw [if_neg hd] at hp
              simp only [Except.ok.injEq] at hp
              rw [← hp]
              simp [hd]
          · unfold pathDir splitOn
            rw [List.getD_eq_getElem _ _ hk]
            split
            · rename_i hh
              simp only [Bool.and_eq_true, and_assoc] at hh
              simp [hh]
            · rename_i hh
              simp only [Bool.and_eq_true, and_assoc] at hh
              simp only [Option.isSome_none, Bool.false_eq_true, false_iff]
              exact hh
          · rintro x rfl
            split at hp
            · cases hx : m.dipoleInit d a.dipoleParameter with
              | error e => rw [hx] at hp; cases hp
              | ok y =>
                rw [hx] at hp
                simp only [Except.map, Except.ok.injEq, Option.some.injEq] at hp
                rw [hp]
            · cases hp
          · split
            · rename_i hh
              simp [hh]
            · rename_i hh
              simp [hh]

/-! ## C56: backend -/

/-- Specification: number of threads. -/
def threadsWanted (s : Sys) (n : Option ℤ) : Option ℤ :=
  match n with
  | some k => some k
  | none => if s.envSet then s.envValue else some s.cpus

/-- **C56.** Which implementation runs, with how many threads, when a warning is given and when the call
fails because of the backend. -/
theorem C56_backend (m : Num K D I P F C R) (s : Sys) (d : D) (a : Args K) (c : Caches K I P F)
    (h : Valid m d c) :
    (∀ o, (calculatePhonons m s d a c).1 = .ok o →
      (a.useC = some false → o.backend = .python ∧ (calculatePhonons m s d a c).2.2 = [])
      ∧ (a.useC = some true → ∃ t, threadsWanted s a.nThreads = some t ∧ o.backend = .c t
          ∧ s.cext = true ∧ (calculatePhonons m s d a c).2.2 = [])
      ∧ (a.useC = none →
          (s.cext = true ∧ ∃ t, threadsWanted s a.nThreads = some t ∧ o.backend = .c t
            ∧ (calculatePhonons m s d a c).2.2 = [])
          ∨ (s.cext = false ∧ o.backend = .python ∧ (calculatePhonons m s d a c).2.2 = [.noC])))
    ∧ ((calculatePhonons m s d a c).1 = .error .importCError → (∀ e, e = Err.importCError →
        m.dipoleInit d a.dipoleParameter ≠ .error e) → a.useC = some true ∧ s.cext = false)
    ∧ (a.useC = some true → s.cext = false → ∃ e, (calculatePhonons m s d a c).1 = .error e) := by
  have h1 := (call_eq m s d a c h).1
  have e1 : (calculatePhonons m s d a c).1 = (callSpec m s d a).1 := by rw [← h1]
  have e2 : (calculatePhonons m s d a c).2.2 = (callSpec m s d a).2 := by rw [← h1]
  rw [e1, e2]
  unfold callSpec
  split
  · refine ⟨by simp, by simp, fun _ _ => ⟨_, rfl⟩⟩
  · rcases hp : (if dipoleOn m d a = true then (m.dipoleInit d a.dipoleParameter).map some
        else (.ok none : Except Err (Option P))) with e | p
    · refine ⟨by simp, ?_, fun _ _ => ⟨_, rfl⟩⟩
      intro he hne
      simp only [Except.error.injEq] at he
      exfalso
      split at hp
      · cases hx : m.dipoleInit d a.dipoleParameter with
        | error e' =>
          rw [hx] at hp
          simp only [Except.map, Except.error.injEq] at hp
          exact hne e' (hp.trans he) hx
        | ok y => rw [hx] at hp; cases hp
      · cases hp
    · dsimp only
      unfold chooseBackend threadsWanted
      rcases a.useC with _ | (_ | _) <;> rcases s.cext with _ | _ <;> rcases a.nThreads with _ | n <;>
        rcases s.envSet with _ | _ <;> rcases s.envValue with _ | v <;> simp

/-- **C56.** If both implementations compute the same at each q-point, the choice of backend and number of
threads does not affect q-points, results or weights. -/
theorem C56_same_results (m : Num K D I P F C R) (s s' : Sys) (d : D) (a : Args K) (u : Option Bool)
    (t : Option ℤ) (c c' : Caches K I P F) (h : Valid m d c) (h' : Valid m d c')
    (hsame : ∀ b b', m.at1 b = m.at1 b') (o o' : Out K R)
    (ho : (calculatePhonons m s d a c).1 = .ok o)
    (ho' : (calculatePhonons m s' d { a with useC := u, nThreads := t } c').1 = .ok o') :
    o.qpts = o'.qpts ∧ o.results = o'.results ∧ o.weights = o'.weights := by
  have h1 := (call_eq m s d a c h).1
  have h1' := (call_eq m s' d { a with useC := u, nThreads := t } c' h').1
  have e1 : (callSpec m s d a).1 = .ok o := by rw [← h1]; exact ho
  have e2 : (callSpec m s' d { a with useC := u, nThreads := t }).1 = .ok o' := by rw [← h1']; exact ho'
  unfold callSpec at e1 e2
  have g1 : dipoleOn m d { a with useC := u, nThreads := t } = dipoleOn m d a := rfl
  have g2 : splitOn m d { a with useC := u, nThreads := t } = splitOn m d a := rfl
  have g3 : outQpts m d { a with useC := u, nThreads := t } = outQpts m d a := rfl
  have g4 : outWeights m d { a with useC := u, nThreads := t } = outWeights m d a := rfl
  have g5 : fcUsed m d { a with useC := u, nThreads := t } = fcUsed m d a := rfl
  rw [g1, g2, g3, g4, g5] at e2
  split at e1
  · cases e1
  · rename_i hw
    rw [if_neg hw] at e2
    rcases hp : (if dipoleOn m d a = true then (m.dipoleInit d a.dipoleParameter).map some
        else (.ok none : Except Err (Option P))) with e | p
    · rw [hp] at e1
      cases e1
    · rw [hp] at e1 e2
      dsimp only at e1 e2
      rcases hb : chooseBackend s a.useC a.nThreads with ⟨b, w⟩
      rcases hb' : chooseBackend s' u t with ⟨b', w'⟩
      rw [hb] at e1
      rw [hb'] at e2
      cases b with
      | error e => cases e1
      | ok b =>
        cases b' with
        | error e => cases e2
        | ok b' =>
          simp only [Except.ok.injEq] at e1 e2
          subst e1 e2
          dsimp only
          rw [hsame b b']
          exact ⟨rfl, rfl, rfl⟩

/-! ## C55: call history -/

/-- What can happen to an object: a calculation, or an assignment to attributes (which does not touch the
caches: euphonic/force_constants.py:124-164). -/
inductive Event (K D : Type)
  | call (s : Sys) (a : Args K)
  | assign (d : D)

/-- Attributes and caches after an event. -/
def step (m : Num K D I P F C R) (x : D × Caches K I P F) : Event K D → D × Caches K I P F
  | .call s a => (x.1, (calculatePhonons m s x.1 a x.2).2.1)
  | .assign d => (d, x.2)

/-- Assignments that do not change what was cached: the images, the dipole data and the corrected force
constants. -/
def Harmless (m : Num K D I P F C R) (d : D) : List (Event K D) → Prop
  | [] => True
  | .call _ _ :: es => Harmless m d es
  | .assign d' :: es => m.images d' = m.images d ∧ m.dipoleInit d' = m.dipoleInit d
      ∧ m.asrFc d' = m.asrFc d ∧ Harmless m d' es

theorem valid_steps (m : Num K D I P F C R) (es : List (Event K D)) (d : D) (c : Caches K I P F)
    (hv : Valid m d c) (hh : Harmless m d es) :
    Valid m (es.foldl (step m) (d, c)).1 (es.foldl (step m) (d, c)).2 := by
  induction es generalizing d c with
  | nil => exact hv
  | cons e es ih =>
    rw [List.foldl_cons]
    cases e with
    | call s a => exact ih _ _ (call_eq m s d a c hv).2 hh
    | assign d' =>
      obtain ⟨h1, h2, h3, h4⟩ := hh
      refine ih _ _ ⟨fun i hi => ?_, fun p x hx => ?_, fun f hf => ?_⟩ h4
      · rw [h1]; exact hv.1 i hi
      · rw [h2]; exact hv.2.1 p x hx
      · rw [h3]; exact hv.2.2 f hf

/-- **C55 (partial).** After any history of calculations with any options, mixed with assignments that do
not change the images, the dipole data or the corrected force constants, a call gives the result (and
warnings) of a new object with the same attributes.  Missing: other assignments, for which this is false
(`C55_assignment_stale`). -/
theorem C55_history_partial (m : Num K D I P F C R) (d : D) (es : List (Event K D))
    (hh : Harmless m d es) (s : Sys) (a : Args K) :
    let x := es.foldl (step m) (d, Caches.empty)
    (calculatePhonons m s x.1 a x.2).1 = (calculatePhonons m s x.1 a Caches.empty).1
    ∧ (calculatePhonons m s x.1 a x.2).2.2 = (calculatePhonons m s x.1 a Caches.empty).2.2 := by
  intro x
  have h1 := (call_eq m s x.1 a x.2 (valid_steps m es d _ (valid_empty m d) hh)).1
  have h2 := (call_eq m s x.1 a Caches.empty (valid_empty m x.1)).1
  have h3 := h1.trans h2.symm
  exact Prod.mk.inj h3

/-- Calls alone are harmless, whatever their options. -/
theorem harmless_calls (m : Num K D I P F C R) (d : D) (cs : List (Sys × Args K)) :
    Harmless m d (cs.map fun x => Event.call x.1 x.2) := by
  induction cs with
  | nil => trivial
  | cons x cs ih => exact ih

/-- A small instance: the attributes are a force constant and a Born charge; the result reports which
force constant and dipole data were used. -/
def toyNum : Num ℚ (ℚ × ℚ) Unit ℚ ℚ Unit (ℚ × Option ℚ) where
  hasBorn := fun d => decide (d.2 ≠ 0)
  images := fun _ => ()
  dipoleInit := fun d p => .ok (d.2 * p)
  rawFc := fun d => d.1
  asrFc := fun d => d.1
  recipAsr := fun _ _ _ _ => ()
  at1 := fun _ _ _ f p _ _ _ _ _ => (f, p)

/-- Arguments of the witness. -/
def toyArgs : Args ℚ where
  qpts := [⟨1/2, 0, 0⟩]
  weights := none
  asr := some .realspace
  dipole := true
  dipoleParameter := 1
  splitting := false
  insertGamma := false
  reduceQpts := true
  useC := some false
  nThreads := none
  gradients := false
  eigenvectors := false

/-- **C55, violation.** After assigning new force constants and Born charges the results still use the
cached ones of the earlier calculation. -/
theorem C55_assignment_stale :
    let s : Sys := ⟨true, false, none, 1⟩
    let x := [Event.call s toyArgs, Event.assign (2, 3)].foldl (step toyNum) ((1, 1), Caches.empty)
    x.1 = (2, 3)
    ∧ (calculatePhonons toyNum s x.1 toyArgs x.2).1.toOption.map (·.results) = some [(1, some 1)]
    ∧ (calculatePhonons toyNum s x.1 toyArgs Caches.empty).1.toOption.map (·.results)
        = some [(2, some 3)] := by
  decide +kernel

/-- A harmless history with two different dipole parameters and both sum rules. -/
example : Harmless toyNum (1, 1) [Event.call ⟨true, false, none, 1⟩ toyArgs,
    Event.call ⟨false, true, none, 1⟩ { toyArgs with dipoleParameter := 2, asr := some .reciprocal },
    Event.assign (1, 1), Event.call ⟨true, false, none, 4⟩ { toyArgs with insertGamma := true }] :=
  ⟨rfl, rfl, rfl, trivial⟩

/-- The hypothesis of the option theorems on a new object. -/
example : Valid toyNum (1, 1) Caches.empty := valid_empty _ _

end Euphonic.Driver
