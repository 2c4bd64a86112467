import Verif.Model.Returned
import Verif.Props.CLoop
import Verif.Props.Driver

/-!
# C169: asking for less does not change the rest
-/

set_option autoImplicit false
set_option linter.unusedSectionVars false

namespace Euphonic.Returned

open Euphonic.Lattice Euphonic.Driver Euphonic.CExt Euphonic.CLoop

/-! ## C: the matrix does not depend on whether gradients are calculated -/

theorem imageSums_grad (I : DynIn) (g g' : Bool) (qpt : Mem) (nc i j : Nat) :
    (imageSums I g qpt nc i j).1 = (imageSums I g' qpt nc i j).1 ∧
      (imageSums I g qpt nc i j).2.1 = (imageSums I g' qpt nc i j).2.1 := by
  unfold imageSums
  refine loop_rel (fun s s' : ℝ × ℝ × Mem => s.1 = s'.1 ∧ s.2.1 = s'.2.1) _ _ _ _ (fun k _ _ s s' h => ?_) _ _ ⟨rfl, rfl⟩
  exact ⟨by simp only [imageStep, h.1], by simp only [imageStep, h.2]⟩

theorem calcDynMat_grad (I : DynIn) (g g' : Bool) (qpt d a a' : Mem) :
    (calcDynMat I g qpt d a).1 = (calcDynMat I g' qpt d a').1 := by
  unfold calcDynMat
  simp only
  unfold dynLoops
  refine loop_rel (fun s s' : Mem × Mem => s.1 = s'.1) _ _ _ _
    (fun i _ _ => loop_rel _ _ _ _ _ fun j _ _ => loop_rel _ _ _ _ _ fun nc _ _ => loop_rel _ _ _ _ _ fun ii _ _ =>
      loop_rel _ _ _ _ _ fun jj _ _ s s' h => ?_) _ _ rfl
  obtain ⟨h1, h2⟩ := imageSums_grad I g g' qpt nc i j
  simp only [elemStep, h1, h2, h]

theorem matrixAtQ_grad (I : DynIn) (D : DipIn) (dipole g g' : Bool) (asr dir : Option Mem) (w qpt d a a' c : Mem) :
    (matrixAtQ I D dipole g asr dir w qpt d a c).1 = (matrixAtQ I D dipole g' asr dir w qpt d a' c).1 := by
  unfold matrixAtQ
  simp only [calcDynMat_grad I g g' qpt d a a']

theorem body_grad (C : Inputs) (g : Bool) (q : Nat) (b : Buffers) :
    (body C q zeroRow b).1.printed = (body { C with grad := g } q zeroRow b).1.printed ∧
      (body C q zeroRow b).1.freqs = (body { C with grad := g } q zeroRow b).1.freqs ∧
      (body C q zeroRow b).1.dmat = (body { C with grad := g } q zeroRow b).1.dmat := by
  have h := matrixAtQ_grad C.I C.D C.dipole C.grad g C.asr (dirOf C q) C.w (C.rqpts q)
    (if C.evecs then fun _ => 0 else b.dmatPerQ) b.dmatGrad b.dmatGrad b.corr
  rw [body_eq, body_eq]
  have e : dirOf { C with grad := g } q = dirOf C q := rfl
  simp only [finish, diagonalise, e, h]
  exact ⟨rfl, rfl, rfl⟩

/-- **C169** In C, frequencies and messages do not depend on whether eigenvectors or gradients are asked for, nor on what is left
in the arrays of the thread; eigenvectors do not depend on whether gradients are asked for and the other way round. -/
theorem C169_c (C : Inputs) (hn : C.D.n = C.I.n) (hsp : C.splitting = true → C.dipole = true) (g e : Bool) (q : Nat)
    (b b' : Buffers) :
    (body C q zeroRow b).1.freqs = (body { C with grad := g, evecs := e } q zeroRow b').1.freqs ∧
      (body C q zeroRow b).1.printed = (body { C with grad := g, evecs := e } q zeroRow b').1.printed ∧
      (C.evecs = true → e = true → ∀ k < 2 * 9 * C.I.n * C.I.n,
        (body C q zeroRow b).1.dmat k = (body { C with grad := g, evecs := e } q zeroRow b').1.dmat k) ∧
      (C.grad = true → g = true → (body C q zeroRow b).1.modeg = (body { C with grad := g, evecs := e } q zeroRow b').1.modeg) := by
  obtain ⟨a1, a2, a3, a4⟩ := body_agree C hn hsp e q b b'
  obtain ⟨b1, b2, b3⟩ := body_grad { C with evecs := e } g q b'
  refine ⟨a2.trans b2, a1.trans b1, fun h h' k hk => ?_, fun h h' => ?_⟩
  · rw [a4 h h' k hk, b3]
  · subst h'
    have : ({ C with grad := true, evecs := e } : Inputs) = { C with evecs := e } := by rw [← h]
    rw [this]
    exact a3

/-! ## Both implementations -/

variable {D I P F C M GM : Type}

/-- What the C function is given has the form that it has in Python: the numbers of atoms agree, and there is no splitting without
dipole correction. -/
def Sound (x : Parts D I P F C M GM) : Prop :=
  ∀ d i f p c, (x.inputs d i f p c).D.n = (x.inputs d i f p c).I.n ∧
    ((x.inputs d i f p c).splitting = true → (x.inputs d i f p c).dipole = true)

/-- Two rows are the same as far as both contain something. -/
def Compatible {V E G : Type} : Except Err (AtQ V E G) → Except Err (AtQ V E G) → Prop
  | .error e, .error e' => e = e'
  | .ok r, .ok r' => r.freqs = r'.freqs ∧ (∀ v ∈ r.evecs, ∀ v' ∈ r'.evecs, v = v') ∧ ∀ v ∈ r.grads, ∀ v' ∈ r'.grads, v = v'
  | _, _ => False

/-- A row contains what has been asked for and nothing else. -/
def Contains {V E G : Type} (g e : Bool) : Except Err (AtQ V E G) → Prop
  | .error _ => True
  | .ok r => r.evecs.isSome = e ∧ r.grads.isSome = g

theorem doubles_congr {n : Nat} {m m' : Mem} (h : ∀ k < n, m k = m' k) : doubles n m = doubles n m' := by
  unfold doubles
  exact List.map_congr_left fun k hk => h k (List.mem_range.1 hk)

theorem contains (x : Parts D I P F C M GM) (b : Backend) (d : D) (i : I) (f : F) (p : Option P) (c : Option C) (g e : Bool)
    (q : V3 ℝ) (v : Option (V3 ℝ)) : Contains g e (x.num.at1 b d i f p c g e q v) := by
  cases b with
  | python =>
    simp only [Parts.num, pyAtQ]
    split
    · trivial
    · cases g <;> cases e <;> exact ⟨rfl, rfl⟩
  | c n => cases g <;> cases e <;> exact ⟨rfl, rfl⟩

theorem compatible (x : Parts D I P F C M GM) (hx : Sound x) (b : Backend) (d : D) (i : I) (f : F) (p : Option P)
    (c : Option C) (g e g' e' : Bool) (q : V3 ℝ) (v : Option (V3 ℝ)) :
    Compatible (x.num.at1 b d i f p c g e q v) (x.num.at1 b d i f p c g' e' q v) := by
  cases b with
  | python =>
    simp only [Parts.num, pyAtQ]
    split
    · exact rfl
    · cases g <;> cases e <;> cases g' <;> cases e' <;> exact ⟨rfl, by simp, by simp⟩
  | c n =>
    obtain ⟨h1, h2⟩ := hx d i f p c
    obtain ⟨a1, -, a3, a4⟩ := C169_c (inputsAt (x.inputs d i f p c) g e q v) h1 h2 g' e' 0 (x.left n d g e q) (x.left n d g' e' q)
    have hi : ({ inputsAt (x.inputs d i f p c) g e q v with grad := g', evecs := e' } : Inputs) =
        inputsAt (x.inputs d i f p c) g' e' q v := rfl
    rw [hi] at a1 a3 a4
    refine ⟨congrArg (doubles _) a1, ?_, ?_⟩
    · cases e <;> cases e' <;> simp
      exact doubles_congr fun k hk => a3 rfl rfl k hk
    · cases g <;> cases g' <;> simp
      exact congrArg _ (a4 rfl rfl)

/-! ## The functions -/

/-- The results of two calls: both fail with the same error, or both return the same q-points and weights, calculated by the same
implementation, with compatible rows. -/
def SameCalls {V E G : Type} : Except Err (Out ℝ (Except Err (AtQ V E G))) → Except Err (Out ℝ (Except Err (AtQ V E G))) → Prop
  | .error e, .error e' => e = e'
  | .ok o, .ok o' => o.qpts = o'.qpts ∧ o.weights = o'.weights ∧ o.backend = o'.backend ∧
    List.Forall₂ Compatible o.results o'.results
  | _, _ => False

/-- There is a row for each q-point, and all rows contain what has been asked for. -/
def AllContain {V E G : Type} (g e : Bool) : Except Err (Out ℝ (Except Err (AtQ V E G))) → Prop
  | .error _ => True
  | .ok o => o.results.length = o.qpts.length ∧ ∀ r ∈ o.results, Contains g e r

theorem calls (x : Parts D I P F C M GM) (hx : Sound x) (s : Sys) (d : D) (a : Args ℝ) (g e : Bool) (c : Caches ℝ I P F) :
    SameCalls (calculatePhonons x.num s d a c).1 (calculatePhonons x.num s d { a with gradients := g, eigenvectors := e } c).1 ∧
      (calculatePhonons x.num s d a c).2 = (calculatePhonons x.num s d { a with gradients := g, eigenvectors := e } c).2 ∧
      AllContain a.gradients a.eigenvectors (calculatePhonons x.num s d a c).1 := by
  have go : SameCalls (calculatePhonons.go x.num s d a c).1 (calculatePhonons.go x.num s d { a with gradients := g, eigenvectors := e } c).1 ∧
      (calculatePhonons.go x.num s d a c).2 = (calculatePhonons.go x.num s d { a with gradients := g, eigenvectors := e } c).2 ∧
      AllContain a.gradients a.eigenvectors (calculatePhonons.go x.num s d a c).1 := by
    unfold calculatePhonons.go
    simp only [C45_results]
    split
    · exact ⟨rfl, rfl, trivial⟩
    · split
      · exact ⟨rfl, rfl, trivial⟩
      · refine ⟨⟨rfl, rfl, rfl, ?_⟩, rfl, ?_⟩
        · simp only
          rw [List.forall₂_map_left_iff, List.forall₂_map_right_iff]
          exact List.forall₂_same.2 fun p _ => compatible x hx _ _ _ _ _ _ _ _ _ _ _ _
        · refine ⟨by simp, fun r hr => ?_⟩
          obtain ⟨p, -, rfl⟩ := List.mem_map.1 hr
          exact contains x _ _ _ _ _ _ _ _ _ _
  unfold calculatePhonons
  simp only
  split
  · split
    · exact ⟨rfl, rfl, trivial⟩
    · exact go
  · exact go

theorem rows_rel {V E G : Type} {l l' : List (Except Err (AtQ V E G))} (h : List.Forall₂ Compatible l l') :
    (∃ e, l.mapM id = .error e ∧ l'.mapM id = .error e) ∨
      ∃ r r', l.mapM id = .ok r ∧ l'.mapM id = .ok r' ∧ r.map (·.freqs) = r'.map (·.freqs) ∧
        List.Forall₂ (fun a b => (∀ v ∈ a.evecs, ∀ v' ∈ b.evecs, v = v') ∧ ∀ v ∈ a.grads, ∀ v' ∈ b.grads, v = v') r r' ∧
        (∀ x ∈ r, .ok x ∈ l) ∧ ∀ x ∈ r', .ok x ∈ l' := by
  induction h with
  | nil => exact .inr ⟨[], [], rfl, rfl, rfl, .nil, by simp, by simp⟩
  | @cons a b l l' hab _ ih =>
    rw [List.mapM_cons, List.mapM_cons]
    cases a with
    | error e =>
      cases b with
      | error e' => exact .inl ⟨e, rfl, by rw [show e = e' from hab]; rfl⟩
      | ok r' => exact hab.elim
    | ok r =>
      cases b with
      | error e' => exact hab.elim
      | ok r' =>
        rcases ih with ⟨e, h1, h2⟩ | ⟨t, t', h1, h2, h3, h4, h5, h6⟩
        · exact .inl ⟨e, by rw [h1]; rfl, by rw [h2]; rfl⟩
        · refine .inr ⟨r :: t, r' :: t', by rw [h1]; rfl, by rw [h2]; rfl, ?_, .cons hab.2 h4, ?_, ?_⟩
          · rw [List.map_cons, List.map_cons, h3, hab.1]
          · intro y hy
            rcases List.mem_cons.1 hy with rfl | hy
            · simp
            · exact List.mem_cons_of_mem _ (h5 y hy)
          · intro y hy
            rcases List.mem_cons.1 hy with rfl | hy
            · simp
            · exact List.mem_cons_of_mem _ (h6 y hy)

theorem mapM_id_length {α : Type} {l : List (Except Err α)} {t : List α} (h : l.mapM id = .ok t) : t.length = l.length := by
  induction l generalizing t with
  | nil => rw [List.mapM_nil] at h; cases h; rfl
  | cons r l ih =>
    rw [List.mapM_cons] at h
    cases r with
    | error e => cases h
    | ok r =>
      cases hl : l.mapM id with
      | error e => rw [hl] at h; cases h
      | ok t' =>
        rw [hl] at h
        obtain rfl := Except.ok.inj h
        simp [ih hl]

theorem option_eq {α : Type} {o o' : Option α} {g : Bool} (h : ∀ v ∈ o, ∀ v' ∈ o', v = v') (h1 : o.isSome = g) (h2 : o'.isSome = g) :
    o = o' := by
  cases o <;> cases o'
  · rfl
  · rw [← h1] at h2; cases h2
  · rw [← h2] at h1; cases h1
  · rw [h _ rfl _ rfl]

theorem map_eq_of {α β : Type} {f : α → β} {l l' : List α} (h : List.Forall₂ (fun a b => f a = f b) l l') : l.map f = l'.map f := by
  induction h with
  | nil => rfl
  | cons h _ ih => rw [List.map_cons, List.map_cons, h, ih]

theorem forall₂_and {α β : Type} {R : α → β → Prop} {p : α → Prop} {q : β → Prop} {l : List α} {l' : List β}
    (h : List.Forall₂ R l l') (hp : ∀ a ∈ l, p a) (hq : ∀ b ∈ l', q b) : List.Forall₂ (fun a b => R a b ∧ p a ∧ q b) l l' := by
  induction h with
  | nil => exact .nil
  | cons h _ ih =>
    exact .cons ⟨h, hp _ (by simp), hq _ (by simp)⟩
      (ih (fun a ha => hp a (List.mem_cons_of_mem _ ha)) fun b hb => hq b (List.mem_cons_of_mem _ hb))

section
variable (x : Parts D I P F C M GM) (hx : Sound x) (s : Sys) (d : D) (a : Args ℝ) (c : Caches ℝ I P F)
include hx

/-- **C169** `calculate_qpoint_frequencies` gives the frequencies, q-points, weights and gradients of
`calculate_qpoint_phonon_modes`, or raises the same error, leaves the same caches and gives the same warnings, whichever
implementation is used. -/
theorem C169_frequencies : calculateQpointFrequencies x.num s d a c =
    ((calculateQpointPhononModes x.num s d a c).1.map fun r => (r.1.toQpointFrequencies, r.2),
      (calculateQpointPhononModes x.num s d a c).2) := by
  obtain ⟨h1, h2, h3⟩ := calls x hx s d { a with eigenvectors := false } a.gradients true c
  obtain ⟨-, -, h4⟩ := calls x hx s d { a with eigenvectors := true } a.gradients true c
  change SameCalls _ (calculatePhonons x.num s d { a with eigenvectors := true } c).1 at h1
  change _ = (calculatePhonons x.num s d { a with eigenvectors := true } c).2 at h2
  unfold calculateQpointFrequencies calculateQpointPhononModes
  simp only
  refine Prod.ext ?_ h2
  simp only
  generalize (calculatePhonons x.num s d { a with eigenvectors := false } c).1 = r at h1 h3
  generalize (calculatePhonons x.num s d { a with eigenvectors := true } c).1 = r' at h1 h4
  cases r with
  | error e =>
    cases r' with
    | error e' => rw [show e = e' from h1]; rfl
    | ok o => exact h1.elim
  | ok o =>
    cases r' with
    | error e' => exact h1.elim
    | ok o' =>
      obtain ⟨q1, q2, -, q4⟩ := h1
      rcases rows_rel q4 with ⟨e, e1, e2⟩ | ⟨t, t', e1, e2, e3, e4, e5, e6⟩
      · simp only [Except.bind, rowsOf, e1, e2, Except.map]
      · simp only [Except.bind, rowsOf, e1, e2, Except.map, Modes.toQpointFrequencies, e3, q1, q2]
        congr 2
        unfold gradientsOf
        split
        · congr 1
          refine map_eq_of ((forall₂_and e4 (p := fun r => r.grads.isSome = a.gradients) (q := fun r => r.grads.isSome = a.gradients)
            (fun r hr => (h3.2 _ (e5 r hr)).2) fun r hr => (h4.2 _ (e6 r hr)).2).imp fun u v h => option_eq h.1.2 h.2.1 h.2.2)
        · rfl

/-- **C169** Asking for gradients does not change the modes: q-points, weights, frequencies and eigenvectors, errors, caches and
warnings (but for that of C147) are the same. -/
theorem C169_gradients (g : Bool) :
    (calculateQpointPhononModes x.num s d { a with gradients := g } c).1.map (·.1) =
        (calculateQpointPhononModes x.num s d a c).1.map (·.1) ∧
      (calculateQpointPhononModes x.num s d { a with gradients := g } c).2 = (calculateQpointPhononModes x.num s d a c).2 := by
  obtain ⟨h1, h2, h3⟩ := calls x hx s d { a with eigenvectors := true } g true c
  obtain ⟨-, -, h4⟩ := calls x hx s d { a with gradients := g, eigenvectors := true } g true c
  change SameCalls _ (calculatePhonons x.num s d { a with gradients := g, eigenvectors := true } c).1 at h1
  change _ = (calculatePhonons x.num s d { a with gradients := g, eigenvectors := true } c).2 at h2
  unfold calculateQpointPhononModes
  simp only
  refine ⟨?_, h2.symm⟩
  generalize (calculatePhonons x.num s d { a with eigenvectors := true } c).1 = r at h1 h3
  generalize (calculatePhonons x.num s d { a with gradients := g, eigenvectors := true } c).1 = r' at h1 h4
  cases r with
  | error e =>
    cases r' with
    | error e' => rw [show e = e' from h1]; rfl
    | ok o => exact h1.elim
  | ok o =>
    cases r' with
    | error e' => exact h1.elim
    | ok o' =>
      obtain ⟨q1, q2, -, q4⟩ := h1
      rcases rows_rel q4 with ⟨e, e1, e2⟩ | ⟨t, t', e1, e2, e3, e4, e5, e6⟩
      · simp only [Except.bind, rowsOf, e1, e2, Except.map]
      · have hev : t.map (·.evecs) = t'.map (·.evecs) :=
          map_eq_of ((forall₂_and e4 (p := fun r => r.evecs.isSome = true) (q := fun r => r.evecs.isSome = true)
            (fun r hr => (h3.2 _ (e5 r hr)).1) fun r hr => (h4.2 _ (e6 r hr)).1).imp fun u v h => option_eq h.1.1 h.2.1 h.2.2)
        simp only [Except.bind, rowsOf, e1, e2, Except.map, e3, q1, q2, hev]

/-- **C169** Every mode has eigenvectors, and gradients are returned if and only if they have been asked for, for every q-point. -/
theorem C169_complete (m : Modes ℝ (List ℝ) (List ℝ)) (gr : Option (List (Option (List ℝ))))
    (h : (calculateQpointPhononModes x.num s d a c).1 = .ok (m, gr)) :
    m.freqs.length = m.qpts.length ∧ m.evecs.length = m.qpts.length ∧ (∀ v ∈ m.evecs, v.isSome) ∧ gr.isSome = a.gradients ∧
      ∀ l ∈ gr, l.length = m.qpts.length ∧ ∀ v ∈ l, v.isSome := by
  obtain ⟨-, -, h3⟩ := calls x hx s d { a with eigenvectors := true } a.gradients true c
  unfold calculateQpointPhononModes at h
  simp only at h
  generalize (calculatePhonons x.num s d { a with eigenvectors := true } c).1 = r at h h3
  cases r with
  | error e => cases h
  | ok o =>
    obtain ⟨l1, l2⟩ := h3
    have hrefl : List.Forall₂ Compatible o.results o.results := List.forall₂_same.2 fun r _ => by
      cases r with
      | error e => exact rfl
      | ok r => exact ⟨rfl, fun v hv v' hv' => by rw [Option.mem_def] at hv hv'; rw [hv] at hv'; exact Option.some.inj hv',
          fun v hv v' hv' => by rw [Option.mem_def] at hv hv'; rw [hv] at hv'; exact Option.some.inj hv'⟩
    rcases rows_rel hrefl with ⟨e, e1, -⟩ | ⟨t, -, e1, -, -, -, e5, -⟩
    · simp only [Except.bind, rowsOf, e1, Except.map] at h
      cases h
    · have hlen : t.length = o.results.length := by
        exact mapM_id_length e1
      simp only [Except.bind, rowsOf, e1, Except.map] at h
      obtain ⟨rfl, rfl⟩ := Prod.mk.inj (Except.ok.inj h)
      refine ⟨by simp [hlen, l1], by simp [hlen, l1], ?_, ?_, ?_⟩
      · intro v hv
        obtain ⟨r, hr, rfl⟩ := List.mem_map.1 hv
        exact (l2 _ (e5 r hr)).1
      · unfold gradientsOf
        cases a.gradients <;> rfl
      · intro l hl
        unfold gradientsOf at hl
        split at hl
        · rename_i hg
          obtain rfl := Option.some.inj hl
          refine ⟨by simp [hlen, l1], fun v hv => ?_⟩
          obtain ⟨r, hr, rfl⟩ := List.mem_map.1 hv
          exact (l2 _ (e5 r hr)).2.trans hg
        · cases hl

end

/-! ## Example: one atom; the arrays of a thread hold different numbers depending on what is asked for -/

namespace Ex

/-- Both implementations; LAPACK is replaced by a function that depends on the matrix. -/
noncomputable def parts : Parts Unit Unit Unit Unit Unit ℝ ℝ where
  hasBorn := fun _ => false
  images := id
  dipoleInit := fun _ _ => .ok ()
  rawFc := id
  asrFc := id
  recipAsr := fun _ _ _ _ => ()
  matrix := fun _ _ _ _ _ q _ => q.x
  gradient := fun _ _ _ q => q.y
  eigh := fun m => .ok ([m, m + 1, m + 2], [1, 0, 0])
  modeGrad := fun f e g => [g, f.length, e.length]
  inputs := fun _ _ _ _ _ => ⟨⟨1, 1, 1, fun _ => 1, fun _ => 0, fun _ => 0, fun _ => 0, fun k => k, fun _ => 1⟩,
    ⟨1, fun _ => 0, fun _ => 0, fun _ => 0, fun _ => 0, fun _ => 0, fun _ => 0, fun _ => 0, 0, fun _ => 0, fun _ => 0, 0,
      fun _ => 0, 1⟩, false, false, false, false, none, fun _ => 1, fun _ _ => 0, [], fun _ _ => 0, fun m => ⟨m, m, 0⟩⟩
  left := fun n _ g e q => ⟨fun _ => n, fun _ => if e then 7 else q.x, fun _ => if g then q.x else 5⟩

theorem sound : Sound parts := fun _ _ _ _ _ => ⟨rfl, by simp [parts]⟩

/-- Two wavevectors without weights, gradients. -/
noncomputable def args (useC : Bool) : Args ℝ :=
  ⟨[⟨1 / 4, 0, 0⟩, ⟨1 / 3, 1 / 2, 0⟩], none, none, true, 1, true, true, false, some useC, none, true, true⟩

/-- A computer with the C extension and four processors. -/
def sys : Sys := ⟨true, false, none, 4⟩

/-- Both implementations return something. -/
theorem returns (useC : Bool) : ∃ m gr, (calculateQpointPhononModes parts.num sys () (args useC) .empty).1 = .ok (m, gr) ∧
    m.qpts = [⟨1 / 4, 0, 0⟩, ⟨1 / 3, 1 / 2, 0⟩] ∧ m.weights = [1 / 2, 1 / 2] := by
  cases useC <;> exact ⟨_, _, rfl, rfl, by norm_num [weightsOr, args, List.replicate]⟩

example (useC : Bool) : ∃ f gr, (calculateQpointFrequencies parts.num sys () (args useC) .empty).1 = .ok (f, some gr) ∧
    f.freqs.length = 2 ∧ gr.length = 2 ∧ ∀ v ∈ gr, v.isSome := by
  obtain ⟨m, gr, h1, h2, -⟩ := returns useC
  obtain ⟨l1, -, -, l4, l5⟩ := C169_complete parts sound _ _ _ _ m gr h1
  cases gr with
  | none => cases l4
  | some gr =>
    refine ⟨m.toQpointFrequencies, gr, ?_, ?_, ?_, (l5 gr rfl).2⟩
    · rw [C169_frequencies parts sound, h1]
      rfl
    · change m.freqs.length = 2
      rw [l1, h2]
      rfl
    · rw [(l5 gr rfl).1, h2]
      rfl

end Ex

end Euphonic.Returned
