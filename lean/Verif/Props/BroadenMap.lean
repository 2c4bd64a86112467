import Verif.Model.BroadenMap
import Verif.Props.BroadenFn
import Verif.Props.ConvertFc
import Mathlib.LinearAlgebra.Pi

/-!
# C103, C104: `broaden` with width functions on maps and collections
-/

set_option autoImplicit false

namespace Euphonic.Broaden

open Supercell

theorem finMapM_of {n : Nat} {β : Type} (f : Fin n → Except Err β) (g : Fin n → β)
    (h : ∀ i, f i = .ok (g i)) : finMapM f = .ok g := by
  have hm : (List.finRange n).mapM f = .ok ((List.finRange n).map g) :=
    mapM_ok_map _ f g fun a _ => h a
  unfold finMapM
  split
  · rename_i e he
    rw [hm] at he
    cases he
  · rename_i l hl
    rw [hm] at hl
    obtain rfl := Except.ok.inj hl
    rw [dif_pos (by simp)]
    congr 1
    funext i
    simp

theorem finMapM_iff {n : Nat} {β : Type} (f : Fin n → Except Err β) (g : Fin n → β) :
    finMapM f = .ok g ↔ ∀ i, f i = .ok (g i) :=
  ⟨fun h i => finMapM_ok f g h i, finMapM_of f g⟩

theorem finMapM_error {n : Nat} {β : Type} (f : Fin n → Except Err β) (e : Err) (hn : n ≠ 0)
    (h : ∀ i, f i = .error e) : finMapM f = .error e := by
  have hm : (List.finRange n).mapM f = .error e := mapM_error_of _ f e (by
    intro hc
    have := congrArg List.length hc
    simp at this
    exact hn this) fun a _ => h a
  unfold finMapM
  split
  · rename_i e' he
    rw [hm] at he
    cases he
    rfl
  · rename_i l hl
    rw [hm] at hl
    cases hl

theorem bind_ok' {α β : Type} {x : Except Err α} {f : α → Except Err β} {b : β} :
    (x >>= f) = .ok b ↔ ∃ a, x = .ok a ∧ f a = .ok b := by
  cases x with
  | error e => simp [bind, Except.bind]
  | ok a => simp [bind, Except.bind]

/-- The widths of the bins of the axis are those of `get_bin_widths`. -/
theorem axis_diffs {n : Nat} {x : List ℝ} {a : Axis n} (ha : axisOf n x = .ok a) :
    getBinWidths n x = .ok a.diffs := by
  unfold axisOf at ha
  obtain ⟨e, he, ha⟩ := bind_ok'.1 ha
  obtain ⟨c, hc, ha⟩ := bind_ok'.1 ha
  obtain rfl := Except.ok.inj ha
  unfold getBinWidths
  rw [he]
  have hlen : e.length = n + 1 := by
    unfold getBinEdges isBinEdge at he
    split at he
    · rename_i h1
      simp [bind, Except.bind, pure, Except.pure] at he
      rw [← he, h1]
    · split at he
      · rename_i h1 h2
        simp only [bind, Except.bind] at he
        unfold binCentresToEdges at he
        cases x with
        | nil => simp at he
        | cons b l =>
          simp only [Bool.false_eq_true, if_false] at he
          obtain rfl := Except.ok.inj he
          simp at h2 ⊢
          omega
      · simp [bind, Except.bind] at he
  show Except.ok (npDiff e) = Except.ok _
  congr 1
  apply List.ext_getElem
  · rw [length_npDiff, hlen]
    simp [Axis.diffs]
  · intro i h1 h2
    rw [getElem_npDiff]
    rw [length_npDiff, hlen] at h1
    simp [Axis.diffs]
    rw [List.getElem?_eq_getElem (by omega), List.getElem?_eq_getElem (by omega)]
    simp

theorem axisOf_ok {n : Nat} {x : List ℝ} {e : List ℝ} (he : getBinEdges n x = .ok e) :
    ∃ a, axisOf n x = .ok a := by
  unfold axisOf
  rw [he]
  unfold getBinEdges isBinEdge at he
  unfold getBinCentres isBinEdge
  split at he
  · rename_i h
    rw [if_pos h]
    exact ⟨_, rfl⟩
  · rename_i h
    split at he
    · rename_i h'
      rw [if_neg h, if_pos h']
      exact ⟨_, rfl⟩
    · cases he

/-- An axis accepted by `Spectrum1D.broaden` is given the same bin width in a map. -/
theorem regular_axis {n : Nat} {x : List ℝ} (h : assertRegularBins n x (1 / 10 ^ 5) 0 = .ok ()) :
    ∃ a, axisOf n x = .ok a ∧ mapBinWidth a.diffs = .ok (a.diffs.headD 0) := by
  unfold assertRegularBins at h
  obtain ⟨w, hw, h⟩ := bind_ok'.1 h
  have hw' := hw
  unfold getBinWidths at hw'
  obtain ⟨e, he, -⟩ := bind_ok'.1 hw'
  obtain ⟨a, ha⟩ := axisOf_ok he
  refine ⟨a, ha, ?_⟩
  rw [axis_diffs ha] at hw
  obtain rfl := Except.ok.inj hw
  cases hd : a.diffs with
  | nil => rw [hd] at h; cases h
  | cons w0 l =>
    rw [hd] at h
    unfold mapBinWidth
    simp only at h ⊢
    split at h
    · rename_i hall
      rw [if_pos]
      · rfl
      · rw [List.all_eq_true] at hall ⊢
        intro v hv
        have := hall v hv
        unfold npIsClose at this ⊢
        rw [decide_eq_true_eq] at this ⊢
        refine this.trans ?_
        norm_num
    · cases h

/-- **C103**: without a lower limit for the widths the largest bin width is the limit. -/
theorem C103_default_limit (o : FnOpts) {n : Nat} (x ws : List ℝ) (hw : getBinWidths n x = .ok ws) (w : ℝ)
    (h1 : w ∈ ws) (h2 : ∀ v ∈ ws, v ≤ w) (f : ℝ → ℝ) (d : Fin n → ℝ) :
    broaden1dFn o.coeffs o.convention o.shape o.fit o.error none x f d =
      broaden1dFn o.coeffs o.convention o.shape o.fit o.error (some w) x f d := by
  have hw' := hw
  unfold getBinWidths at hw'
  obtain ⟨e, he, -⟩ := bind_ok'.1 hw'
  obtain ⟨a, ha⟩ := axisOf_ok he
  rw [axis_diffs ha] at hw
  obtain rfl := Except.ok.inj hw
  have hmax : a.diffs.foldr max (a.diffs.headD 0) = w := by
    have hle : ∀ (l : List ℝ) (z : ℝ), z ≤ l.foldr max z ∧ (∀ v ∈ l, v ≤ l.foldr max z) ∧
        (l.foldr max z = z ∨ l.foldr max z ∈ l) := by
      intro l z
      induction l with
      | nil => simp
      | cons b l ih =>
        obtain ⟨i1, i2, i3⟩ := ih
        rw [List.foldr_cons]
        refine ⟨i1.trans (le_max_right _ _), ?_, ?_⟩
        · intro v hv
          rcases List.mem_cons.1 hv with rfl | hv
          · exact le_max_left _ _
          · exact (i2 v hv).trans (le_max_right _ _)
        · rcases max_choice b (l.foldr max z) with h | h
          · exact Or.inr (by rw [h]; simp)
          · rw [h]
            rcases i3 with i3 | i3
            · exact Or.inl i3
            · exact Or.inr (List.mem_cons_of_mem _ i3)
    obtain ⟨-, g2, g3⟩ := hle a.diffs (a.diffs.headD 0)
    refine le_antisymm (h2 _ ?_) (g2 w h1)
    rcases g3 with g3 | g3
    · rw [g3]
      cases hd : a.diffs with
      | nil => rw [hd] at h1; cases h1
      | cons b l => simp
    · exact g3
  unfold broaden1dFn
  rw [ha]
  have hv : ∀ wts : Fin n → ℝ, variableWidth o.coeffs o.convention o.shape o.fit o.error none a f wts =
      variableWidth o.coeffs o.convention o.shape o.fit o.error (some w) a f wts := by
    intro wts
    simp only [variableWidth, Option.getD_none, Option.getD_some, hmax]
  cases assertRegularBins n x (1 / 10 ^ 5) 0 with
  | error e => rfl
  | ok u => exact hv _

/-- Bins of widths 1, 2 and 1: the limit is 2. -/
example (o : FnOpts) (f : ℝ → ℝ) (d : Fin 3 → ℝ) :
    broaden1dFn o.coeffs o.convention o.shape o.fit o.error none [0, 1, 3, 4] f d =
      broaden1dFn o.coeffs o.convention o.shape o.fit o.error (some 2) [0, 1, 3, 4] f d := by
  refine C103_default_limit o [0, 1, 3, 4] [1, 2, 1] ?_ 2 (by simp) (by norm_num) f d
  simp [getBinWidths, getBinEdges, isBinEdge, bind, Except.bind, pure, Except.pure, npDiff]
  norm_num

/-- **C103.** On an axis that `Spectrum1D.broaden` accepts, a map broadened along y with a function is the
map whose rows are broadened separately. -/
theorem C103_rows_partial (o : FnOpts) (method : Option String) (limx limy : Option ℝ) {n m : Nat}
    (x y : List ℝ) (hy : assertRegularBins m y (1 / 10 ^ 5) 0 = .ok ()) (f : ℝ → ℝ)
    (d d' : Fin n → Fin m → ℝ) :
    broadenMap o method limx limy x y .none (.fn f) d = .ok d' ↔
      ∀ i, broaden1dFn o.coeffs o.convention o.shape o.fit o.error limy y f (d i) = .ok (d' i) := by
  obtain ⟨a, ha, hbw⟩ := regular_axis hy
  have h1 : broadenMap o method limx limy x y .none (.fn f) d =
      alongY o.coeffs o.convention o.shape o.fit o.error limy y f d := by
    unfold broadenMap broaden2d
    simp [Width.quantity, anyWidth, fnX, fnY, bind, Except.bind]
  have h2 : alongY o.coeffs o.convention o.shape o.fit o.error limy y f d = finMapM fun i =>
      variableWidth o.coeffs o.convention o.shape o.fit o.error limy a f fun j => d i j * a.diffs.headD 0 := by
    unfold alongY
    rw [ha]
    simp only [bind, Except.bind, hbw]
  rw [h1, h2, finMapM_iff]
  refine forall_congr' fun i => ?_
  unfold broaden1dFn
  rw [hy, ha]
  rfl

/-- **C103.** ... and a map broadened along x with a function is the map whose columns are broadened
separately. -/
theorem C103_columns_partial (o : FnOpts) (method : Option String) (limx limy : Option ℝ) {n m : Nat}
    (x y : List ℝ) (hx : assertRegularBins n x (1 / 10 ^ 5) 0 = .ok ()) (f : ℝ → ℝ)
    (d d' : Fin n → Fin m → ℝ) :
    broadenMap o method limx limy x y (.fn f) .none d = .ok d' ↔
      ∀ j, broaden1dFn o.coeffs o.convention o.shape o.fit o.error limx x f (fun i => d i j) =
        .ok fun i => d' i j := by
  obtain ⟨a, ha, hbw⟩ := regular_axis hx
  have h1 : broadenMap o method limx limy x y (.fn f) .none d =
      alongX o.coeffs o.convention o.shape o.fit o.error limx x f d := by
    unfold broadenMap broaden2d
    simp [Width.quantity, anyWidth, fnX, fnY, bind, Except.bind]
    cases alongX o.coeffs o.convention o.shape o.fit o.error limx x f d <;> rfl
  have h2 : alongY o.coeffs o.convention o.shape o.fit o.error limx x f (fun j i => d i j) = finMapM fun j =>
      variableWidth o.coeffs o.convention o.shape o.fit o.error limx a f fun i => d i j * a.diffs.headD 0 := by
    unfold alongY
    rw [ha]
    simp only [bind, Except.bind, hbw]
  have h3 : ∀ d'' : Fin m → Fin n → ℝ,
      alongY o.coeffs o.convention o.shape o.fit o.error limx x f (fun j i => d i j) = .ok d'' ↔
      ∀ j, broaden1dFn o.coeffs o.convention o.shape o.fit o.error limx x f (fun i => d i j) =
        .ok (d'' j) := by
    intro d''
    rw [h2, finMapM_iff]
    refine forall_congr' fun i => ?_
    unfold broaden1dFn
    rw [hx, ha]
    rfl
  rw [h1, ← h3 fun j i => d' i j]
  unfold alongX
  constructor
  · intro h
    obtain ⟨r, hr, h⟩ := bind_ok'.1 h
    rw [hr, ← Except.ok.inj h]
  · intro h
    rw [h]
    rfl

/-! ## Both axes -/

/-- Along y every row is multiplied by the same matrix. -/
def FormY {n m : Nat} (T : (Fin n → Fin m → ℝ) → Except Err (Fin n → Fin m → ℝ)) : Prop :=
  (∃ e, ∀ d, T d = .error e) ∨ ∃ G : Fin m → Fin m → ℝ, ∀ d, T d = .ok fun i b => ∑ j, d i j * G j b

/-- Along x every column is multiplied by the same matrix. -/
def FormX {n m : Nat} (T : (Fin n → Fin m → ℝ) → Except Err (Fin n → Fin m → ℝ)) : Prop :=
  (∃ e, ∀ d, T d = .error e) ∨ ∃ G : Fin n → Fin n → ℝ, ∀ d, T d = .ok fun a j => ∑ i, d i j * G i a

theorem forms_commute {n m : Nat} {T U : (Fin n → Fin m → ℝ) → Except Err (Fin n → Fin m → ℝ)}
    (hT : FormX T) (hU : FormY U) (d d' : Fin n → Fin m → ℝ) :
    (∃ s, T d = .ok s ∧ U s = .ok d') ↔ ∃ s, U d = .ok s ∧ T s = .ok d' := by
  rcases hT with ⟨e, he⟩ | ⟨G, hG⟩
  · simp [he]
  · rcases hU with ⟨e, he⟩ | ⟨H, hH⟩
    · simp [he]
    · have h1 : (∃ s, T d = .ok s ∧ U s = .ok d') ↔ U (fun a j => ∑ i, d i j * G i a) = .ok d' := by
        constructor
        · rintro ⟨s, h, h'⟩
          rw [hG] at h
          rwa [Except.ok.inj h]
        · intro h
          exact ⟨_, hG d, h⟩
      have h2 : (∃ s, U d = .ok s ∧ T s = .ok d') ↔ T (fun i b => ∑ j, d i j * H j b) = .ok d' := by
        constructor
        · rintro ⟨s, h, h'⟩
          rw [hH] at h
          rwa [Except.ok.inj h]
        · intro h
          exact ⟨_, hH d, h⟩
      rw [h1, h2, hH, hG]
      have : (fun (a : Fin n) (b : Fin m) => ∑ j, (∑ i, d i j * G i a) * H j b) =
          fun a b => ∑ i, (∑ j, d i j * H j b) * G i a := by
        funext a b
        simp only [Finset.sum_mul]
        rw [Finset.sum_comm]
        refine Finset.sum_congr rfl fun i _ => Finset.sum_congr rfl fun j _ => ?_
        ring
      rw [this]

theorem axisFilter_matrix (shape : String) (c : List ℝ) (w : ℝ) (n : Nat) :
    ∃ G : Fin n → Fin n → ℝ, ∀ d : Fin n → ℝ, axisFilter shape c w d = fun b => ∑ j, d j * G j b := by
  let L : (Fin n → ℝ) →ₗ[ℝ] (Fin n → ℝ) :=
    { toFun := axisFilter shape c w
      map_add' := by
        intro s t
        have := axisFilter_add shape c w 1 1 s t
        simp only [one_mul] at this
        exact this
      map_smul' := by
        intro a s
        have := axisFilter_add shape c w a 0 s s
        simp only [zero_mul, add_zero] at this
        exact this }
  refine ⟨fun j b => L (fun k => if j = k then 1 else 0) b, fun d => ?_⟩
  have := LinearMap.pi_apply_eq_sum_univ L d
  funext b
  have h := congrFun this b
  rw [Finset.sum_apply] at h
  exact h

theorem variableWidth_matrix (o : FnOpts) (herr : 0 < o.error) (limit : Option ℝ) {n : Nat} (hn : n ≠ 0)
    (a : Axis n) (hbw : firstWidth hn a.edges ≠ 0) (width : ℝ → ℝ) :
    (∃ e, ∀ d, variableWidth o.coeffs o.convention o.shape o.fit o.error limit a width d = .error e) ∨
    ∃ G : Fin n → Fin n → ℝ, ∀ d,
      variableWidth o.coeffs o.convention o.shape o.fit o.error limit a width d =
      .ok fun b => ∑ j, d j * G j b := by
  have hne : (List.finRange n) ≠ [] := by
    intro hc
    have := congrArg List.length hc
    simp at this
    exact hn this
  have hconv : ∀ lim, (∃ e, ∀ w, effectiveWidth o.convention o.shape lim w = .error e) ∨
      ∃ g : ℝ → ℝ, ∀ w, effectiveWidth o.convention o.shape lim w = .ok (g w) := by
    intro lim
    unfold effectiveWidth
    by_cases h1 : o.convention = "fwhm" ∧ o.shape = "gauss"
    · right
      exact ⟨fun w => max (w / Real.sqrt (8 * Real.log 2)) lim, fun w => by rw [if_pos h1]⟩
    · by_cases h2 : o.convention = "std" ∧ o.shape = "lorentz"
      · left
        exact ⟨_, fun w => by rw [if_neg h1, if_pos h2]⟩
      · by_cases h3 : o.convention = "std" ∨ o.convention = "fwhm"
        · right
          exact ⟨fun w => max w lim, fun w => by rw [if_neg h1, if_neg h2, if_pos h3]⟩
        · left
          exact ⟨_, fun w => by rw [if_neg h1, if_neg h2, if_neg h3]⟩
  unfold variableWidth
  generalize limit.getD _ = lim
  rcases hconv lim with ⟨e, he⟩ | ⟨g, hg⟩
  · left
    refine ⟨e, fun d => ?_⟩
    rw [mapM_error_of _ _ e hne]
    · rfl
    · intro i _
      rw [he]
      rfl
  · have hrun : ∀ d : Fin n → ℝ, ((List.finRange n).mapM fun i => do
          let w ← effectiveWidth o.convention o.shape lim (width (a.centres i))
          return Peak.mk (a.centres i) w (d i)) =
        (.ok (peaksOf a.centres (fun i => g (width (a.centres i))) d) : Except Err (List Peak)) := by
      intro d
      unfold peaksOf
      apply mapM_ok_map
      intro i _
      rw [hg]
      rfl
    rcases widthInterpolated_linear o.coeffs o.shape o.fit o.error herr hn a.edges hbw a.centres
      (fun i => g (width (a.centres i))) with ⟨e, he⟩ | ⟨G, hG⟩
    · left
      refine ⟨e, fun d => ?_⟩
      rw [hrun d]
      exact he _
    · right
      refine ⟨G, fun d => ?_⟩
      rw [hrun d]
      exact hG _

theorem alongY_form (o : FnOpts) (herr : 0 < o.error) (limit : Option ℝ) (n : Nat) {m : Nat} (y : List ℝ)
    (hy : ∀ w, getBinWidths m y = .ok w → ∀ v ∈ w, v ≠ 0) (f : ℝ → ℝ) :
    FormY (n := n) (m := m) (alongY o.coeffs o.convention o.shape o.fit o.error limit y f) := by
  unfold FormY alongY
  cases ha : axisOf m y with
  | error e => exact Or.inl ⟨e, fun d => rfl⟩
  | ok a =>
    simp only [bind, Except.bind]
    cases hb : mapBinWidth a.diffs with
    | error e => exact Or.inl ⟨e, fun d => rfl⟩
    | ok bw =>
      have hm : m ≠ 0 := by
        rintro rfl
        have : a.diffs = [] := by simp [Axis.diffs]
        rw [this] at hb
        cases hb
      have hw : firstWidth hm a.edges ≠ 0 := by
        have := hy _ (axis_diffs ha) (a.edges (⟨0, by omega⟩ : Fin m).succ -
          a.edges (⟨0, by omega⟩ : Fin m).castSucc) (by
            unfold Axis.diffs
            exact List.mem_map.2 ⟨⟨0, by omega⟩, List.mem_finRange _, rfl⟩)
        exact this
      rcases variableWidth_matrix o herr limit hm a hw f with ⟨e, he⟩ | ⟨G, hG⟩
      · by_cases hn : n = 0
        · subst hn
          refine Or.inr ⟨fun _ _ => 0, fun d => ?_⟩
          exact finMapM_of _ _ fun i => i.elim0
        · exact Or.inl ⟨e, fun d => finMapM_error _ e hn fun i => he _⟩
      · refine Or.inr ⟨fun j b => bw * G j b, fun d => ?_⟩
        refine finMapM_of _ _ fun i => ?_
        rw [hG]
        congr 1
        funext b
        exact Finset.sum_congr rfl fun j _ => by ring

theorem alongX_form (o : FnOpts) (herr : 0 < o.error) (limit : Option ℝ) {n : Nat} (m : Nat) (x : List ℝ)
    (hx : ∀ w, getBinWidths n x = .ok w → ∀ v ∈ w, v ≠ 0) (f : ℝ → ℝ) :
    FormX (n := n) (m := m) (alongX o.coeffs o.convention o.shape o.fit o.error limit x f) := by
  rcases alongY_form o herr limit m x hx f with ⟨e, he⟩ | ⟨G, hG⟩
  · refine Or.inl ⟨e, fun d => ?_⟩
    unfold alongX
    rw [he]
    rfl
  · refine Or.inr ⟨G, fun d => ?_⟩
    unfold alongX
    rw [hG]
    rfl

theorem identity_sum {n : Nat} (d : Fin n → ℝ) (b : Fin n) :
    ∑ j, d j * (if j = b then (1 : ℝ) else 0) = d b := by
  simp

theorem broaden2d_formX (shape : String) (method : Option String) {n m : Nat} (x y : List ℝ) (w : Option ℝ) :
    FormX (n := n) (m := m) (broaden2d shape method x y w none) := by
  rcases broaden2d_cases (n := n) (m := m) shape method x y w none with ⟨e, he⟩ | h | ⟨cx, cy, -, h⟩
  · exact Or.inl ⟨e, he⟩
  · refine Or.inr ⟨fun i a => if i = a then 1 else 0, fun d => ?_⟩
    rw [h]
    congr 1
    funext a j
    exact (identity_sum (fun i => d i j) a).symm
  · cases w with
    | none =>
      refine Or.inr ⟨fun i a => if i = a then 1 else 0, fun d => ?_⟩
      rw [h]
      congr 1
      funext a j
      exact (identity_sum (fun i => d i j) a).symm
    | some w =>
      obtain ⟨G, hG⟩ := axisFilter_matrix shape cx w n
      refine Or.inr ⟨G, fun d => ?_⟩
      rw [h]
      congr 1
      funext a j
      exact congrFun (hG fun i => d i j) a

theorem broaden2d_formY (shape : String) (method : Option String) {n m : Nat} (x y : List ℝ) (w : Option ℝ) :
    FormY (n := n) (m := m) (broaden2d shape method x y none w) := by
  rcases broaden2d_cases (n := n) (m := m) shape method x y none w with ⟨e, he⟩ | h | ⟨cx, cy, -, h⟩
  · exact Or.inl ⟨e, he⟩
  · refine Or.inr ⟨fun i a => if i = a then 1 else 0, fun d => ?_⟩
    rw [h]
    congr 1
    funext a j
    exact (identity_sum (fun i => d a i) j).symm
  · cases w with
    | none =>
      refine Or.inr ⟨fun i a => if i = a then 1 else 0, fun d => ?_⟩
      rw [h]
      congr 1
      funext a j
      exact (identity_sum (fun i => d a i) j).symm
    | some w =>
      obtain ⟨G, hG⟩ := axisFilter_matrix shape cy w m
      refine Or.inr ⟨G, fun d => ?_⟩
      rw [h]
      congr 1
      funext a
      exact hG (d a)

theorem checks_both (shape : String) (method : Option String) (cx cy : List ℝ) (wx wy : ℝ) :
    checks shape method cx (some wx) cy (some wy) = .ok () ↔
      checks shape method cx (some wx) cy none = .ok () ∧ checks shape method cx none cy (some wy) = .ok () := by
  unfold checks
  by_cases h1 : shape ≠ "gauss" ∧ shape ≠ "lorentz"
  · simp [h1, bind, Except.bind, throw, throwThe, MonadExceptOf.throw]
  · by_cases h2 : method ≠ none ∧ method ≠ some "convolve"
    · simp [h1, h2, bind, Except.bind, throw, throwThe, MonadExceptOf.throw]
    · rw [if_neg h1, if_neg h1, if_neg h1, if_neg h2, if_neg h2, if_neg h2]
      have e1 : ∀ c, equalBins c none = .ok true := fun c => rfl
      simp only [e1]
      cases equalBins cx (some wx) with
      | error e => simp [bind, Except.bind, pure, Except.pure]
      | ok ex =>
        cases equalBins cy (some wy) with
        | error e => simp [bind, Except.bind, pure, Except.pure]
        | ok ey =>
          by_cases hm : method = none <;> cases ex <;> cases ey <;>
            simp [bind, Except.bind, pure, Except.pure, hm, throw, throwThe, MonadExceptOf.throw]

theorem broaden2d_both (shape : String) (method : Option String) {n m : Nat} (x y : List ℝ) (wx wy : ℝ)
    (hx : wx ≠ 0) (hy : wy ≠ 0) (d d' : Fin n → Fin m → ℝ) :
    broaden2d shape method x y (some wx) (some wy) d = .ok d' ↔
      ∃ s, broaden2d shape method x y (some wx) none d = .ok s ∧
        broaden2d shape method x y none (some wy) s = .ok d' := by
  have a1 : anyWidth (some wx) (some wy) = true := by simp [anyWidth, hx]
  have a2 : anyWidth (some wx) none = true := by simp [anyWidth, hx]
  have a3 : anyWidth none (some wy) = true := by simp [anyWidth, hy]
  unfold broaden2d
  rw [a1, a2, a3]
  simp only [if_true]
  cases getBinCentres n x with
  | error e => simp [bind, Except.bind]
  | ok cx =>
    cases getBinCentres m y with
    | error e => simp [bind, Except.bind]
    | ok cy =>
      have e1 : ∀ {α β : Type} (a : α) (f : α → Except Err β), (Except.ok a >>= f) = f a := fun a f => rfl
      simp only [e1]
      simp only [bind_ok', pure, Except.pure]
      constructor
      · rintro ⟨u, hu, h⟩
        have := (checks_both shape method cx cy wx wy).1 hu
        exact ⟨_, ⟨(), this.1, rfl⟩, (), this.2, h⟩
      · rintro ⟨s, ⟨u, hu, h⟩, u', hu', h'⟩
        refine ⟨(), (checks_both shape method cx cy wx wy).2 ⟨hu, hu'⟩, ?_⟩
        rw [← h', ← Except.ok.inj h]
        rfl

/-- A width that is used: not a quantity of zero. -/
def Width.nonzero : Width → Prop
  | .fixed w => w ≠ 0
  | _ => True

/-- **C103.** Broadening along both axes in one call is broadening along x and then along y, and also
broadening along y and then along x, whatever kinds of widths are combined. (`0 < o.error` is the target
error of the interpolation of kernels; a width of zero is excluded, and no bin has width zero.) -/
theorem C103_axes_independent (o : FnOpts) (herr : 0 < o.error) (method : Option String)
    (limx limy : Option ℝ) {n m : Nat} (x y : List ℝ)
    (hx : ∀ w, getBinWidths n x = .ok w → ∀ v ∈ w, v ≠ 0)
    (hy : ∀ w, getBinWidths m y = .ok w → ∀ v ∈ w, v ≠ 0)
    (wx wy : Width) (hwx : wx.nonzero) (hwy : wy.nonzero) (d d' : Fin n → Fin m → ℝ) :
    (broadenMap o method limx limy x y wx wy d = .ok d' ↔
      ∃ s, broadenMap o method limx limy x y wx .none d = .ok s ∧
        broadenMap o method limx limy x y .none wy s = .ok d') ∧
    (broadenMap o method limx limy x y wx wy d = .ok d' ↔
      ∃ s, broadenMap o method limx limy x y .none wy d = .ok s ∧
        broadenMap o method limx limy x y wx .none s = .ok d') := by
  have e1 : ∀ {α β : Type} (a : α) (f : α → Except Err β), (Except.ok a >>= f) = f a := fun a f => rfl
  have e2 : ∀ {α : Type} (a : Except Err α), (a >>= fun s => Except.ok s) = a := by
    intro α a
    cases a <;> rfl
  have hnn : ∀ d : Fin n → Fin m → ℝ, broaden2d o.shape method x y none none d = .ok d := by
    intro d
    unfold broaden2d
    simp [anyWidth]
  have hfx : FormX (n := n) (m := m) (broadenMap o method limx limy x y wx .none) := by
    cases wx with
    | none =>
      have := broaden2d_formX (n := n) (m := m) o.shape method x y none
      unfold broadenMap
      simpa only [Width.quantity, fnX, fnY, e1, e2] using this
    | fixed w =>
      have := broaden2d_formX (n := n) (m := m) o.shape method x y (some w)
      unfold broadenMap
      simpa only [Width.quantity, fnX, fnY, e1, e2] using this
    | fn f =>
      have := alongX_form o herr limx m x hx f
      unfold broadenMap
      simpa only [Width.quantity, fnX, fnY, e1, e2, hnn] using this
  have hfy : FormY (n := n) (m := m) (broadenMap o method limx limy x y .none wy) := by
    cases wy with
    | none =>
      have := broaden2d_formY (n := n) (m := m) o.shape method x y none
      unfold broadenMap
      simpa only [Width.quantity, fnX, fnY, e1, e2] using this
    | fixed w =>
      have := broaden2d_formY (n := n) (m := m) o.shape method x y (some w)
      unfold broadenMap
      simpa only [Width.quantity, fnX, fnY, e1, e2] using this
    | fn f =>
      have := alongY_form o herr limy n y hy f
      unfold broadenMap
      simpa only [Width.quantity, fnX, fnY, e1, e2, hnn] using this
  have hcomm := forms_commute hfx hfy d d'
  suffices h : broadenMap o method limx limy x y wx wy d = .ok d' ↔
      ∃ s, broadenMap o method limx limy x y wx .none d = .ok s ∧
        broadenMap o method limx limy x y .none wy s = .ok d' from ⟨h, h.trans hcomm⟩
  cases wy with
  | none =>
    have : ∀ s : Fin n → Fin m → ℝ, broadenMap o method limx limy x y .none .none s = .ok s := by
      intro s
      unfold broadenMap
      simp only [Width.quantity, fnX, fnY, hnn, e1]
    simp only [this]
    constructor
    · intro h
      exact ⟨d', h, rfl⟩
    · rintro ⟨s, h, h'⟩
      rw [h, h']
  | fn f =>
    have h1 : ∀ s : Fin n → Fin m → ℝ, broadenMap o method limx limy x y .none (.fn f) s =
        alongY o.coeffs o.convention o.shape o.fit o.error limy y f s := by
      intro s
      unfold broadenMap
      simp only [Width.quantity, fnX, fnY, hnn, e1]
    have h2 : broadenMap o method limx limy x y wx (.fn f) d =
        (broadenMap o method limx limy x y wx .none d >>=
          alongY o.coeffs o.convention o.shape o.fit o.error limy y f) := by
      unfold broadenMap
      simp only [Width.quantity, fnY, e2]
      rw [bind_assoc]
    rw [h2, bind_ok']
    simp only [h1]
  | fixed w =>
    cases wx with
    | none =>
      have : broadenMap o method limx limy x y .none .none d = .ok d := by
        unfold broadenMap
        simp only [Width.quantity, fnX, fnY, hnn, e1]
      rw [this]
      constructor
      · intro h
        exact ⟨d, rfl, h⟩
      · rintro ⟨s, h, h'⟩
        rwa [Except.ok.inj h]
    | fixed w' =>
      have := broaden2d_both o.shape method x y w' w hwx hwy d d'
      unfold broadenMap
      simpa only [Width.quantity, fnX, fnY, e1, e2] using this
    | fn f =>
      rw [hcomm]
      have h1 : ∀ s : Fin n → Fin m → ℝ, broadenMap o method limx limy x y (.fn f) .none s =
          alongX o.coeffs o.convention o.shape o.fit o.error limx x f s := by
        intro s
        unfold broadenMap
        simp only [Width.quantity, fnX, fnY, hnn, e1, e2]
      have h2 : broadenMap o method limx limy x y (.fn f) (.fixed w) d =
          (broadenMap o method limx limy x y .none (.fixed w) d >>=
            alongX o.coeffs o.convention o.shape o.fit o.error limx x f) := by
        unfold broadenMap
        simp only [Width.quantity, fnX, fnY, e2]
      rw [h2, bind_ok']
      simp only [h1]

/-! ## Axes for which the bins are not regular -/

/-- Edges made of regular centres: the first and the last bin are only half as wide as the others. -/
noncomputable def centreEdges (c0 h : ℝ) (n : Nat) (k : Fin (n + 1)) : ℝ :=
  if k.val = 0 then c0 else if k.val = n then c0 + ((n : ℝ) - 1) * h else c0 + ((k : ℝ) - 1 / 2) * h

theorem axisOf_centres (c0 h : ℝ) (n : Nat) :
    axisOf (n + 3) (regular c0 h (n + 3)) =
      .ok ⟨centreEdges c0 h (n + 3), fun i => c0 + (i : ℝ) * h⟩ := by
  have hlen : (regular c0 h (n + 3)).length = n + 3 := by simp [regular]
  obtain ⟨a, l, hal⟩ : ∃ a l, regular c0 h (n + 3) = a :: l := by
    cases hr : regular c0 h (n + 3) with
    | nil => rw [hr] at hlen; simp at hlen
    | cons a l => exact ⟨a, l, rfl⟩
  have hget : ∀ (k : Nat) (hk : k < (a :: l).length), (a :: l)[k] = c0 + (k : ℝ) * h := by
    intro k hk
    simp only [← hal]
    simp [regular]
  have hl : l.length = n + 2 := by
    rw [hal] at hlen
    simpa using hlen
  have hE : getBinEdges (n + 3) (regular c0 h (n + 3)) = .ok ([a] ++
      List.zipWith (fun p q => (p + q) / 2) l (a :: l).dropLast ++ [(a :: l).getLast (by simp)]) := by
    unfold getBinEdges isBinEdge
    rw [hlen, if_neg (by omega), if_pos rfl, hal]
    rfl
  have hC : getBinCentres (n + 3) (regular c0 h (n + 3)) = .ok (regular c0 h (n + 3)) := by
    unfold getBinCentres isBinEdge
    rw [hlen, if_neg (by omega), if_pos rfl]
    rfl
  unfold axisOf
  rw [hE, hC]
  show Except.ok _ = Except.ok _
  congr 1
  congr 1
  · funext k
    unfold centreEdges
    have ha : a = c0 := by
      have := hget 0 (by simp)
      simpa using this
    rcases Nat.eq_zero_or_pos k.val with h0 | h0
    · rw [if_pos h0, h0]
      simp [ha]
    · rw [if_neg (by omega)]
      by_cases h1 : k.val = n + 3
      · rw [if_pos h1, h1, List.getD_eq_getElem?_getD, List.getElem?_append_right (by simp [hl])]
        simp [hl]
        rw [List.getLast_eq_getElem, hget]
        simp only [List.length_cons, hl]
        rw [show n + 2 + 1 - 1 = n + 2 from rfl]
        push_cast
        ring
      · rw [if_neg h1]
        have hk := k.isLt
        have h2 : k.val - 1 < n + 2 := by omega
        rw [List.getD_eq_getElem?_getD, List.getElem?_append_left (by simp [hl]; omega),
          List.getElem?_append_right (by simp; omega)]
        rw [List.getElem?_eq_getElem (by simp [hl]; omega)]
        simp only [List.length_singleton, List.getElem_zipWith, List.getElem_dropLast, Option.getD_some]
        rw [hget (k.val - 1) (by simp [hl]; omega)]
        have := hget (k.val - 1 + 1) (by simp [hl]; omega)
        rw [List.getElem_cons_succ] at this
        rw [this]
        rw [show k.val - 1 + 1 = k.val by omega, Nat.cast_sub h0]
        push_cast
        ring
  · funext i
    rw [List.getD_eq_getElem?_getD, hal, List.getElem?_eq_getElem (by simp [hl]; omega), hget]
    rfl

theorem countedIn_centres (c0 h : ℝ) (hh : 0 < h) (n : Nat) (i j : Fin (n + 3)) :
    CountedIn (centreEdges c0 h (n + 3)) j (c0 + (i : ℝ) * h) ↔ j = i := by
  have hm : StrictMono (centreEdges c0 h (n + 3)) := by
    apply Fin.strictMono_iff_lt_succ.2
    intro k
    unfold centreEdges
    simp only [Fin.val_castSucc, Fin.val_succ]
    have hk := k.isLt
    rw [if_neg (show ¬ (k.val + 1 = 0) by omega), if_neg (show ¬ (k.val = n + 3) by omega)]
    by_cases h0 : k.val = 0
    · rw [if_pos h0, if_neg (by omega), h0]
      push_cast
      nlinarith
    · rw [if_neg h0]
      split
      · rename_i h1
        have : ((k.val : ℕ) : ℝ) = (n : ℝ) + 2 := by
          have : k.val = n + 2 := by omega
          rw [this]
          push_cast
          ring
        rw [this]
        push_cast
        nlinarith
      · push_cast
        nlinarith
  have hi : CountedIn (centreEdges c0 h (n + 3)) i (c0 + (i : ℝ) * h) := by
    unfold CountedIn centreEdges
    simp only [Fin.val_castSucc, Fin.val_succ]
    have hk := i.isLt
    rw [if_neg (show ¬ (i.val + 1 = 0) by omega), if_neg (show ¬ (i.val = n + 3) by omega)]
    constructor
    · split
      · have : (0 : ℝ) ≤ (i.val : ℝ) := Nat.cast_nonneg _
        nlinarith
      · nlinarith
    · by_cases h1 : i.val + 1 = n + 3
      · right
        refine ⟨h1, ?_⟩
        rw [if_pos h1]
        have : ((i.val : ℕ) : ℝ) = (n : ℝ) + 2 := by
          have : i.val = n + 2 := by omega
          rw [this]
          push_cast
          ring
        rw [this]
        push_cast
        ring
      · left
        rw [if_neg h1]
        push_cast
        nlinarith
  constructor
  · intro hj
    obtain ⟨k, -, huniq⟩ := (C69_counted_once (centreEdges c0 h (n + 3)) (by omega) hm (c0 + (i : ℝ) * h)).1
      ((C69_counted_once (centreEdges c0 h (n + 3)) (by omega) hm (c0 + (i : ℝ) * h)).2
        ⟨i, hi, fun j hj => by
          by_contra hne
          rcases lt_or_gt_of_ne hne with hlt | hlt
          · have : centreEdges c0 h (n + 3) j.succ ≤ centreEdges c0 h (n + 3) i.castSucc :=
              hm.monotone (Fin.le_def.2 (by simpa using hlt))
            rcases hj.2 with h2 | ⟨h2, -⟩
            · exact absurd (hi.1.trans_lt h2) (not_lt.2 this)
            · have := Fin.lt_def.1 hlt
              omega
          · have : centreEdges c0 h (n + 3) i.succ ≤ centreEdges c0 h (n + 3) j.castSucc :=
              hm.monotone (Fin.le_def.2 (by simpa using hlt))
            rcases hi.2 with h2 | ⟨h2, -⟩
            · exact absurd (hj.1.trans_lt h2) (not_lt.2 this)
            · have := Fin.lt_def.1 hlt
              omega⟩)
    rw [huniq j hj, huniq i hi]
  · rintro rfl
    exact hi

theorem centre_diffs (c0 h : ℝ) (n : Nat) :
    (Axis.mk (centreEdges c0 h (n + 3)) fun i : Fin (n + 3) => c0 + (i : ℝ) * h).diffs =
      (h / 2) :: (List.replicate (n + 1) h ++ [h / 2]) := by
  apply List.ext_getElem
  · simp [Axis.diffs]
  · intro k h1 h2
    have hk : k < n + 3 := by simpa [Axis.diffs] using h1
    simp only [Axis.diffs, List.getElem_map, List.getElem_finRange, centreEdges, Fin.val_castSucc, Fin.val_succ,
      Fin.val_cast]
    rw [if_neg (show ¬ (k + 1 = 0) by omega), if_neg (show ¬ (k = n + 3) by omega)]
    rcases Nat.eq_zero_or_pos k with rfl | hpos
    · simp
      ring
    · obtain ⟨k', rfl⟩ : ∃ k', k = k' + 1 := ⟨k - 1, by omega⟩
      rw [if_neg (show ¬ (k' + 1 = 0) by omega), List.getElem_cons_succ, List.getElem_append]
      by_cases hl : k' + 1 + 1 = n + 3
      · have : (k' : ℝ) = n + 1 := by
          have : k' = n + 1 := by omega
          rw [this]
          push_cast
          ring
        rw [if_pos hl, dif_neg (by simp; omega)]
        simp
        rw [this]
        ring
      · rw [if_neg hl, dif_pos (by simp; omega)]
        simp
        ring

theorem centre_binWidth (c0 h : ℝ) (hh : 1 / 10 ^ 7 ≤ h) (n : Nat) :
    mapBinWidth (Axis.mk (centreEdges c0 h (n + 3)) fun i : Fin (n + 3) => c0 + (i : ℝ) * h).diffs =
      .ok (((n : ℝ) + 2) / ((n : ℝ) + 3) * h) := by
  rw [centre_diffs]
  unfold mapBinWidth
  simp only
  rw [if_neg]
  · congr 1
    simp [List.sum_replicate]
    field_simp
    ring
  · rw [List.all_eq_true]
    intro hc
    have := hc h (by simp [List.replicate_succ])
    unfold npIsClose at this
    rw [decide_eq_true_eq] at this
    have hp : 0 < h := lt_of_lt_of_le (by norm_num) hh
    rw [show h - h / 2 = h / 2 by ring, abs_of_pos (by linarith)] at this
    norm_num at this hh
    linarith

/-- **C103 is violated on an axis of bin centres**: `Spectrum1D.broaden` refuses the axis (the edges made of
centres are not regular), a map is broadened with the kernel at half of the distance between the bins - so
the peaks are twice as wide as requested - and with a weight that is not the bin width. (`hh`: bins so
small that they are within the absolute tolerance of `isclose` are left out; `w'` is the width after
conversion and lower limit.) -/
theorem C103_centres_too_wide (o : FnOpts) (herr : 0 < o.error) (method : Option String)
    (limx : Option ℝ) (limit : ℝ) {k n : Nat} (x : List ℝ) (c0 h : ℝ) (hh : 1 / 10 ^ 7 ≤ h) (w w' : ℝ)
    (hw : effectiveWidth o.convention o.shape limit w = .ok w') (d d' : Fin k → Fin (n + 3) → ℝ)
    (hd : broadenMap o method limx (some limit) x (regular c0 h (n + 3)) .none (.fn fun _ => w) d = .ok d') :
    (∀ i, broaden1dFn o.coeffs o.convention o.shape o.fit o.error (some limit) (regular c0 h (n + 3))
      (fun _ => w) (d i) = .error .assertionError) ∧
    ∀ i b, d' i b = ∑ j : Fin (n + 3), if |(b : Int) - (j : Int)| ≤ (((n + 3) / 2 : Nat) : Int)
      then d i j * (((n : ℝ) + 2) / ((n : ℝ) + 3) * h) * pdf o.shape (((b : ℝ) - (j : ℝ)) * (h / 2)) w'
      else 0 := by
  have hp : 0 < h := lt_of_lt_of_le (by norm_num) hh
  have hax := axisOf_centres c0 h n
  constructor
  · intro i
    have hreg : assertRegularBins (n + 3) (regular c0 h (n + 3)) (1 / 10 ^ 5) 0 = .error .assertionError := by
      unfold assertRegularBins
      rw [axis_diffs hax, centre_diffs]
      simp only [bind, Except.bind]
      rw [if_neg]
      rw [List.all_eq_true]
      intro hc
      have := hc h (by simp [List.replicate_succ])
      unfold npIsClose at this
      rw [decide_eq_true_eq] at this
      rw [show h - h / 2 = h / 2 by ring, abs_of_pos (by linarith)] at this
      norm_num at this
      linarith
    unfold broaden1dFn
    rw [hreg]
    rfl
  · intro i b
    have h1 : broadenMap o method limx (some limit) x (regular c0 h (n + 3)) .none (.fn fun _ => w) d =
        alongY o.coeffs o.convention o.shape o.fit o.error (some limit) (regular c0 h (n + 3)) (fun _ => w) d := by
      unfold broadenMap broaden2d
      simp [Width.quantity, anyWidth, fnX, fnY, bind, Except.bind]
    rw [h1] at hd
    unfold alongY at hd
    rw [hax] at hd
    simp only [bind, Except.bind, centre_binWidth c0 h hh n] at hd
    have hi := (finMapM_iff _ _).1 hd i
    unfold variableWidth at hi
    simp only [Option.getD_some, hw] at hi
    rw [mapM_ok_map _ (fun j : Fin (n + 3) => (do
        let w ← Except.ok w'
        pure (Peak.mk (c0 + (j : ℝ) * h) w (d i j * (((n : ℝ) + 2) / ((n : ℝ) + 3) * h))) : Except Err Peak))
      (fun j : Fin (n + 3) => Peak.mk (c0 + (j : ℝ) * h) w'
      (d i j * (((n : ℝ) + 2) / ((n : ℝ) + 3) * h))) (by
        intro j _
        rfl)] at hi
    have hfw : firstWidth (n := n + 3) (by omega) (centreEdges c0 h (n + 3)) = h / 2 := by
      unfold firstWidth centreEdges
      simp
      ring
    have := C69_single_width o.coeffs o.shape o.fit o.error herr (by omega) (centreEdges c0 h (n + 3))
      (by rw [hfw]; linarith) _ w' (by
        intro p hp
        obtain ⟨j, -, rfl⟩ := List.mem_map.1 hp
        rfl) (d' i) hi b
    rw [this, hfw, List.map_map, ← List.ofFn_eq_map, List.sum_ofFn]
    refine Finset.sum_congr rfl fun j _ => ?_
    simp only [Function.comp]
    unfold response
    rw [Finset.sum_eq_single j]
    · by_cases hk : |(b : Int) - (j : Int)| ≤ (((n + 3) / 2 : Nat) : Int)
      · rw [if_pos ⟨(countedIn_centres c0 h hp n j j).2 rfl, hk⟩, if_pos hk]
      · rw [if_neg (fun hc => hk hc.2), if_neg hk, mul_zero]
    · intro j' _ hj
      rw [if_neg (fun hc => hj ((countedIn_centres c0 h hp n j j').1 hc.1))]
    · intro hc
      exact absurd (Finset.mem_univ _) hc

/-- **C103**, the object: if no width is used, the result of `broaden` is the spectrum itself and not a new
object. -/
theorem C103_same_object (o : FnOpts) (method : Option String) (limx limy : Option ℝ) {n m : Nat}
    (x y : List ℝ) (wx wy : Width) (d : Fin n → Fin m → ℝ) (h : sameObject wx wy = true) :
    broadenMap o method limx limy x y wx wy d = .ok d ∧
      (∀ w, wx = .fixed w → w = 0) ∧ (∀ w, wy = .fixed w → w = 0) := by
  unfold sameObject at h
  cases wx <;> cases wy <;> simp [anyWidth, Width.quantity] at h <;>
    simp [broadenMap, broaden2d, anyWidth, Width.quantity, fnX, fnY, bind, Except.bind, h]

/-- A width of zero for x and none for y: the same object. -/
example : sameObject (.fixed 0) .none = true := by simp [sameObject, anyWidth, Width.quantity]

/-- Edges 0, 1, 2, 3 are regular. -/
example : assertRegularBins 3 [(0 : ℝ), 1, 2, 3] (1 / 10 ^ 5) 0 = .ok () := by
  simp [assertRegularBins, getBinWidths, getBinEdges, isBinEdge, bind, Except.bind, pure, Except.pure, npDiff,
    npIsClose]
  norm_num

/-- ... and none of their bins has width zero. -/
example : ∀ w, getBinWidths 3 [(0 : ℝ), 1, 2, 3] = .ok w → ∀ v ∈ w, v ≠ 0 := by
  intro w hw v hv
  simp [getBinWidths, getBinEdges, isBinEdge, bind, Except.bind, pure, Except.pure, npDiff] at hw
  subst hw
  simp at hv
  rcases hv with rfl | rfl | rfl <;> norm_num

/-- Centres one unit apart are far from the absolute tolerance. -/
example : (1 : ℝ) / 10 ^ 7 ≤ 1 := by norm_num

/-- Such a map, with three centres one unit apart, is accepted. -/
example (coeffs : ℝ → List ℝ) (d : Fin 2 → Fin (0 + 3) → ℝ) :
    ∃ d', broadenMap ⟨coeffs, "std", "gauss", "cubic", 1 / 100⟩ none none (some 0) [0, 1, 2]
      (regular 0 1 (0 + 3)) .none (.fn fun _ => 2) d = .ok d' := by
  have hv : ∀ wts : Fin (0 + 3) → ℝ, ∃ s, variableWidth coeffs "std" "gauss" "cubic" (1 / 100) (some 0)
      (Axis.mk (centreEdges 0 1 (0 + 3)) fun i : Fin (0 + 3) => 0 + (i : ℝ) * 1) (fun _ => 2) wts = .ok s := by
    intro wts
    unfold variableWidth
    have hw : effectiveWidth "std" "gauss" 0 2 = .ok 2 := by
      rw [C93_limit_partial _ _ _ _ (Or.inl ⟨rfl, rfl⟩)]
      norm_num
    simp only [Option.getD_some, hw]
    rw [mapM_ok_map _ (fun j : Fin (0 + 3) => (do
        let w ← Except.ok 2
        pure (Peak.mk (0 + (j : ℝ) * 1) w (wts j)) : Except Err Peak))
      (fun j : Fin (0 + 3) => Peak.mk (0 + (j : ℝ) * 1) 2 (wts j)) (by intro j _; rfl)]
    unfold widthInterpolated
    rw [cubic_spacing]
    simp only [bind, Except.bind]
    rw [dif_neg (by omega)]
    simp only [List.finRange_succ, List.map_cons]
    rw [if_neg, if_neg (by decide)]
    · exact ⟨_, rfl⟩
    · simp only [minWidth, List.map_cons, List.map_nil, List.foldr_cons, not_le, List.finRange_zero,
        List.foldr_nil]
      norm_num
  choose g hg using hv
  refine ⟨fun i => g fun j => d i j * (((0 : ℕ) + 2) / ((0 : ℕ) + 3) * 1), ?_⟩
  unfold broadenMap broaden2d
  simp only [Width.quantity, anyWidth, fnX, fnY, bind, Except.bind]
  simp only [Option.mem_def, reduceCtorEq, false_and, exists_false, or_self, decide_false,
    Bool.false_eq_true, if_false]
  unfold alongY
  rw [axisOf_centres]
  simp only [bind, Except.bind, centre_binWidth 0 1 (by norm_num) 0]
  exact finMapM_of _ _ fun i => hg _

/-! ## Collections -/

/-- **C104.** Broadening a collection is broadening each of its spectra, with a quantity or with a
function; a collection without spectra is left as it is by a quantity. -/
theorem C104_lines (o : FnOpts) (method : Option String) (limit : Option ℝ) {k n : Nat} (hk : k ≠ 0)
    (x : List ℝ) (w : Width) (d d' : Fin k → Fin n → ℝ) :
    broadenColl o method limit x w d = .ok d' ↔ ∀ i, broadenLine o method limit x w (d i) = .ok (d' i) := by
  have i0 : Fin k := ⟨0, by omega⟩
  cases w with
  | none =>
    simp [broadenColl, broadenLine]
    exact ⟨i0⟩
  | fn f =>
    unfold broadenColl broadenLine
    simp only
    rw [if_neg hk, finMapM_iff]
  | fixed w =>
    unfold broadenColl broadenLine broaden1d
    simp only
    cases getBinCentres n x with
    | error e =>
      simp [bind, Except.bind]
      exact ⟨i0⟩
    | ok c =>
      simp only [bind, Except.bind]
      rw [finMapM_iff]

/-- **C104**, refusals: if one spectrum of the collection is refused, so is the collection - and with the
error of the spectrum, because whether a spectrum is refused does not depend on its data. -/
theorem C104_refused (o : FnOpts) (method : Option String) (limit : Option ℝ) {k n : Nat} (hk : k ≠ 0)
    (x : List ℝ) (w : ℝ) (d : Fin k → Fin n → ℝ) (e : Err) (i : Fin k)
    (h : broadenLine o method limit x (.fixed w) (d i) = .error e) :
    broadenColl o method limit x (.fixed w) d = .error e := by
  unfold broadenColl broadenLine broaden1d at *
  simp only at *
  cases hc : getBinCentres n x with
  | error e' =>
    rw [hc] at h
    cases h
    rfl
  | ok c =>
    rw [hc] at h
    simp only [bind, Except.bind] at h ⊢
    refine finMapM_error _ e hk fun i' => ?_
    cases hk : checks o.shape method c (some w) [] none with
    | error e' =>
      rw [hk] at h
      exact h
    | ok u =>
      rw [hk] at h
      cases h

/-- **C104**, no spectra: with a quantity nothing happens, with a function there is an error. -/
theorem C104_empty (o : FnOpts) (method : Option String) (limit : Option ℝ) {n : Nat} (x c : List ℝ)
    (hc : getBinCentres n x = .ok c) (w : ℝ) (f : ℝ → ℝ) (d : Fin 0 → Fin n → ℝ) :
    broadenColl o method limit x (.fixed w) d = .ok d ∧
      broadenColl o method limit x (.fn f) d = .error .indexError := by
  constructor
  · unfold broadenColl
    simp only [hc, bind, Except.bind]
    exact finMapM_of _ _ fun i => i.elim0
  · unfold broadenColl
    simp

/-- Two spectra of three bins each are accepted. -/
example (d : Fin 2 → Fin (1 + 2) → ℝ) : ∃ d', broadenColl ⟨fun _ => [], "fwhm", "gauss", "cheby-log", 1⟩ none none
    (regular 0 1 (1 + 2)) (.fixed 2) d = .ok d' := by
  have hc : getBinCentres (1 + 2) (regular 0 1 (1 + 2)) = .ok (regular 0 1 (1 + 2)) := by
    unfold getBinCentres isBinEdge
    have : (regular 0 1 (1 + 2)).length = 3 := by simp [regular]
    rw [this]
    rfl
  refine ⟨fun i => axisFilter "gauss" (regular 0 1 (1 + 2)) 2 (d i), ?_⟩
  rw [C104_lines _ _ _ (by norm_num)]
  intro i
  exact broaden1d_of hc (checks_regular "gauss" none 2 0 1 1 (Or.inl rfl) (Or.inl rfl)) (d i)

end Euphonic.Broaden
