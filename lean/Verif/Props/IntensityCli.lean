import Verif.Model.IntensityCli
import Verif.Props.DispCli
import Verif.Props.Dos

/-!
# C110: what `euphonic-intensity-map` draws
-/

set_option autoImplicit false

namespace Euphonic.IntensityCli

open Euphonic.Lattice Euphonic.Plot Euphonic.DispCli

/-! ## Splitting and drawing -/

section Draw

/-- The columns of an image, each from bottom to top. -/
def columns (a : Image ℝ) : List (List ℝ) := List.ofFn fun i => List.ofFn fun j => a.pixel j i

/-- What the images must show: the intensities at every point of the path, once, in order and at its distance, over the
centres of the energy bins, all ticks at the points they label, and the same colours everywhere. -/
structure Complete (x y : List ℝ) (rows : List (List ℝ)) (T : List (Nat × String)) (ims : List (Image ℝ)) : Prop where
  columns : (ims.flatMap fun a => List.zip a.xs (columns a)) = List.zip x rows
  energies : ∀ a ∈ ims, a.ys = midpoints y
  ticks : (ims.flatMap fun a => match a.ticks with | none => [] | some k => List.zip k.at_ k.labels) =
    T.map fun t => (x.getD t.1 0, t.2)
  colours : ∀ a ∈ ims, ∀ b ∈ ims, a.norm = b.norm

/-- The piece of a map on a range. -/
noncomputable def piece (s : Spec2D ℝ Unit) (r : Int × Option Int) : Spec2D ℝ Unit :=
  ⟨pySlice s.x r.1 r.2, s.y, s.nyb, pySlice s.z r.1 r.2, cutXTicks s.ticks r.1 r.2, s.md⟩

theorem split_eq (s : Spec2D ℝ Unit) (hx : s.x.length = s.z.length) (hy : s.y.length = s.nyb + 1) (is : List Int) :
    s.splitByIndices is = .ok ((rangesFrom 0 is).map (piece s)) := by
  unfold Spec2D.splitByIndices
  rw [rangesFromIndices_eq]
  apply mapM_ok_of_forall
  intro r _
  unfold Spec2D.new
  rw [if_pos]
  · rfl
  · refine ⟨Or.inl ?_, Or.inr hy⟩
    rw [length_pySlice, length_pySlice, hx]

theorem centres_midpoints (n : Nat) (y : List ℝ) (h : y.length = n + 1) : getBinCentres n y = .ok (midpoints y) := by
  rw [getBinCentres_edges n y h]
  congr 1
  unfold midpoints
  apply List.ext_getElem
  · simp [length_binEdgesToCentres]
  · intro i h1 h2
    rw [getElem_binEdgesToCentres]
    simp

theorem axis_of (m : Map ℝ Unit) (hx : m.x.length = m.nx) (h0 : 0 < m.nx) (hy : m.y.length = m.ny + 1) :
    ∃ xl yl, ∀ nrm, plot2dToAxis m nrm =
      (setXTicks m.ticks m.x >>= fun t => .ok ⟨m.x, midpoints m.y, m.ny, m.nx, fun j i => m.z i j, nrm, xl, yl, t⟩) := by
  obtain ⟨e, he⟩ := (C08_axis_length m.nx m.x).2.2.2.2.2.2 (Or.inl ⟨hx, h0⟩)
  have hel : e ≠ [] := by
    have h1 := he
    rw [getBinEdges_centres _ _ hx] at h1
    obtain ⟨e', h2, h3, -⟩ := binCentresToEdges_spec m.x (by omega)
    rw [h1] at h2
    cases h2
    intro h
    rw [h] at h3
    simp at h3
  obtain ⟨xl, hxl, -⟩ := minMax_ok e hel
  obtain ⟨yl, hyl, -⟩ := minMax_ok m.y (by intro h; rw [h] at hy; simp at hy)
  refine ⟨xl, yl, ?_⟩
  intro nrm
  unfold plot2dToAxis
  rw [he, getBinEdges_edges _ _ hy, getBinCentres_centres _ _ hx, centres_midpoints _ _ hy]
  simp only [bind, Except.bind]
  rw [hxl]
  simp only
  rw [hyl]
  rfl

theorem values_ne (factor : Unit → Unit → ℝ) (m : Map ℝ Unit) (h0 : 0 < m.nx) (h1 : 0 < m.ny) : m.values factor () ≠ [] := by
  intro h
  unfold Map.values at h
  rw [List.flatten_eq_nil_iff] at h
  have := h (List.ofFn fun j => m.z ⟨0, h0⟩ j * factor m.zUnit ()) (List.mem_ofFn.2 ⟨⟨0, h0⟩, rfl⟩)
  rw [List.ofFn_eq_nil_iff] at this
  omega

theorem plot2d_of (l : List (Int × Option Int)) (hl : l ≠ []) (f : Int × Option Int → Map ℝ Unit)
    (hf : ∀ r ∈ l, (f r).x.length = (f r).nx ∧ 0 < (f r).nx ∧ 0 < (f r).ny) (vmin vmax : Option ℝ) :
    ∃ w nrm, plot2d (fun _ _ => 1) (l.map f) vmin vmax =
      ((l.mapM fun r => plot2dToAxis (f r) nrm) >>= fun d => .ok (w, d)) := by
  have hmapM : ∀ {β : Type} (g : Map ℝ Unit → Except Err β), (∀ r ∈ l, ∃ b, g (f r) = .ok b) →
      ∃ bs, (l.map f).mapM g = .ok bs ∧ bs.length = l.length := by
    intro β g
    clear hf hl
    induction l with
    | nil => intro _; exact ⟨[], rfl, rfl⟩
    | cons r l ih =>
      intro h
      obtain ⟨b, hb⟩ := h r (by simp)
      obtain ⟨bs, hbs, hlen⟩ := ih fun r hr => h r (by simp [hr])
      refine ⟨b :: bs, ?_, by simp [hlen]⟩
      rw [List.map_cons, List.mapM_cons, hb, hbs]
      rfl
  obtain ⟨w, hw, -⟩ := hmapM (qRange (fun _ _ => (1 : ℝ)) ()) (by
    intro r hr
    obtain ⟨h1, h2, -⟩ := hf r hr
    have hpos : 0 < (f r).x.length := by omega
    unfold qRange
    generalize hd : (f r).x.map (· * (1 : ℝ)) = d
    have hdl : 0 < d.length := by rw [← hd, List.length_map]; exact hpos
    have g1 : ∃ v, pyGet d (-1) = .ok v := by
      unfold pyGet
      refine ⟨d[d.length - 1], ?_⟩
      have : ((-1 : Int) + d.length).toNat = d.length - 1 := by omega
      simp only [show (-1 : Int) < 0 by decide, if_true]
      rw [if_neg (by omega), this, List.getElem?_eq_getElem (by omega)]
    have g2 : ∃ v, pyGet d 0 = .ok v := by
      unfold pyGet
      refine ⟨d[0], ?_⟩
      simp [List.getElem?_eq_getElem hdl]
    obtain ⟨v1, g1⟩ := g1
    obtain ⟨v2, g2⟩ := g2
    refine ⟨v1 - v2, ?_⟩
    simp only [g1, g2]
    rfl)
  obtain ⟨mm, hmm, hlen⟩ := hmapM (fun m => minMax (m.values (fun _ _ => (1 : ℝ)) ())) (by
    intro r hr
    obtain ⟨-, h2, h3⟩ := hf r hr
    obtain ⟨m, hm, -⟩ := minMax_ok _ (values_ne (fun _ _ => 1) (f r) h2 h3)
    exact ⟨m, hm⟩)
  have hmmne : mm ≠ [] := by
    intro h
    rw [h] at hlen
    exact hl (List.length_eq_zero_iff.1 (by simpa using hlen.symm))
  obtain ⟨lo, hlo, -⟩ := minMax_ok (mm.map Prod.fst) (by simpa using hmmne)
  obtain ⟨hi, hhi, -⟩ := minMax_ok (mm.map Prod.snd) (by simpa using hmmne)
  refine ⟨w, (vmin.getD lo.1, vmax.getD hi.2), ?_⟩
  cases l with
  | nil => exact absurd rfl hl
  | cons r l =>
    rw [List.map_cons] at hw hmm ⊢
    unfold plot2d
    simp only
    rw [hw, hmm]
    simp only [bind, Except.bind]
    rw [hlo]
    simp only
    rw [hhi, ← List.map_cons]
    simp only [List.mapM_map]
    rfl

theorem columns_rows (z : List (List ℝ)) (n : Nat) (h : ∀ r ∈ z, r.length = n) :
    (List.ofFn fun i : Fin z.length => List.ofFn fun j : Fin n => entry z i.val j.val) = z := by
  apply List.ext_getElem
  · simp
  · intro i h1 h2
    have hi := h _ (List.getElem_mem h2)
    rw [List.getElem_ofFn]
    apply List.ext_getElem
    · simp [hi]
    · intro j h3 h4
      rw [List.getElem_ofFn]
      unfold entry
      simp only
      rw [List.getD_eq_getElem _ _ h2, List.getD_eq_getElem _ _ h4]

/-- One image. -/
theorem subplot (s : Spec2D ℝ Unit) (hx : s.x.length = s.z.length) (hy : s.y.length = s.nyb + 1) (hyb : 0 < s.nyb)
    (hr : ∀ y ∈ s.z, y.length = s.nyb) (T : List (Int × String)) (hT : s.ticks = some T)
    (hTn : ∀ t ∈ T, t.1 < s.z.length) (r : Int × Option Int) (h0 : 0 ≤ r.1) (h1 : r.1 < s.z.length)
    (h2 : ∀ e, r.2 = some e → r.1 < e ∧ e < s.z.length) (nrm : ℝ × ℝ) :
    ((toMap (piece s r)).x.length = (toMap (piece s r)).nx ∧ 0 < (toMap (piece s r)).nx ∧ 0 < (toMap (piece s r)).ny) ∧
    (T.filter (fun p => inRange r p.1) = [] → plot2dToAxis (toMap (piece s r)) nrm = .error .valueError) ∧
    (T.filter (fun p => inRange r p.1) ≠ [] → ∃ d, plot2dToAxis (toMap (piece s r)) nrm = .ok d ∧
      List.zip d.xs (columns d) = pySlice (List.zip s.x s.z) r.1 r.2 ∧ d.ys = midpoints s.y ∧ d.norm = nrm ∧
      (match d.ticks with | none => [] | some k => List.zip k.at_ k.labels) =
        (T.filter fun p => inRange r p.1).map fun t => (s.x.getD t.1.toNat 0, t.2)) := by
  have e1 := pyIdx_of_range h0 (show r.1 ≤ (s.z.length : Int) by omega)
  have hlen : (pySlice s.x r.1 r.2).length = (pySlice s.z r.1 r.2).length := by
    rw [length_pySlice, length_pySlice, hx]
  have hzl : 0 < (pySlice s.z r.1 r.2).length := by
    rw [length_pySlice]
    cases hr2 : r.2 with
    | none => simp only; omega
    | some e =>
      obtain ⟨h3, h4⟩ := h2 e hr2
      have e2 := pyIdx_of_range (show 0 ≤ e by omega) (show e ≤ (s.z.length : Int) by omega)
      simp only; omega
  have htk : (toMap (piece s r)).ticks = some ((T.filter fun p => inRange r p.1).map fun p => (p.1 - r.1, p.2)) := by
    unfold toMap piece
    simp only [hT]
    rfl
  obtain ⟨xl, yl, hax⟩ := axis_of (toMap (piece s r)) hlen hzl hy
  refine ⟨⟨hlen, hzl, hyb⟩, ?_, ?_⟩
  · intro hem
    rw [hax, htk, hem]
    rfl
  · intro hem
    have hfit : ∀ p ∈ T.filter (fun p => inRange r p.1), 0 ≤ p.1 - r.1 ∧ p.1 - r.1 < (pySlice s.x r.1 r.2).length := by
      intro p hp
      obtain ⟨hp1, hp2⟩ := List.mem_filter.1 hp
      have := hTn p hp1
      unfold inRange at hp2
      rw [Bool.and_eq_true, decide_eq_true_eq] at hp2
      refine ⟨by omega, ?_⟩
      rw [length_pySlice, hx]
      cases hr2 : r.2 with
      | none => simp only; omega
      | some e =>
        obtain ⟨h3, h4⟩ := h2 e hr2
        have e2 := pyIdx_of_range (show 0 ≤ e by omega) (show e ≤ (s.z.length : Int) by omega)
        have h5 := hp2.2
        rw [hr2] at h5
        simp only [decide_eq_true_eq] at h5
        simp only; omega
    have htf : TicksFit (toMap (piece s r)).ticks (toMap (piece s r)).x := by
      intro t ht
      rw [htk] at ht
      cases ht
      refine ⟨by simpa using hem, ?_⟩
      intro p hp
      obtain ⟨q, hq, rfl⟩ := List.mem_map.1 hp
      exact hfit q hq
    obtain ⟨mk, hmk, -, hk⟩ := setXTicks_ok _ _ htf
    obtain ⟨k, hk1, hk2, hk3, -⟩ := hk _ htk
    refine ⟨_, by rw [hax, hmk]; rfl, ?_, rfl, rfl, ?_⟩
    · rw [pySlice_zip _ _ hx]
      show List.zip (pySlice s.x r.1 r.2) _ = _
      congr 1
      apply columns_rows (pySlice s.z r.1 r.2) s.nyb
      intro y hy'
      apply hr
      obtain ⟨i, hi, rfl⟩ := List.getElem_of_mem hy'
      obtain ⟨q1, q2⟩ := getElem_pySlice s.z r.1 r.2 i hi
      rw [q2]
      exact List.getElem_mem _
    · rw [hk1]
      simp only
      rw [hk2]
      have hat : k.at_ = (T.filter fun p => inRange r p.1).map fun t => s.x.getD t.1.toNat 0 := by
        apply List.map_injective_iff.2 (Option.some_injective _)
        rw [hk3, List.map_map, List.map_map]
        apply List.map_congr_left
        intro p hp
        obtain ⟨f1, f2⟩ := hfit p hp
        simp only [Function.comp_def]
        have hlt : (p.1 - r.1).toNat < (pySlice s.x r.1 r.2).length := by omega
        obtain ⟨q1, q2⟩ := getElem_pySlice s.x r.1 r.2 _ hlt
        show (pySlice s.x r.1 r.2)[(p.1 - r.1).toNat]? = _
        rw [List.getElem?_eq_getElem hlt, q2]
        have hidx : pyIdx s.x.length r.1 + (p.1 - r.1).toNat = p.1.toNat := by rw [hx]; omega
        have hlt2 : p.1.toNat < s.x.length := by rw [← hidx]; exact q1
        rw [List.getD_eq_getElem _ _ hlt2]
        simp only [hidx]
      rw [hat, List.map_map]
      clear hat hk3 hk2 hk1 hk hmk htf hfit htk hem hax
      induction T.filter fun p => inRange r p.1 with
      | nil => rfl
      | cons p l ih =>
        rw [List.map_cons, List.map_cons, List.map_cons, List.zip_cons_cons, ih]
        rfl

/-- Splitting and drawing: it succeeds if and only if every stretch has a tick, and then everything is drawn. -/
theorem draw (s : Spec2D ℝ Unit) (h0 : 0 < s.z.length) (hx : s.x.length = s.z.length) (hy : s.y.length = s.nyb + 1)
    (hyb : 0 < s.nyb) (hr : ∀ y ∈ s.z, y.length = s.nyb) (T : List (Nat × String)) (hT : s.ticks = some (intTicks T))
    (hTs : T.Pairwise fun s t => s.1 ≤ t.1) (hTn : ∀ t ∈ T, t.1 < s.z.length) (is : List Int)
    (hb : StrictBreaks s.z.length is) (vmin vmax : Option ℝ) :
    ((∃ r, (s.splitByIndices is >>= fun ps => plot2d (fun _ _ => 1) (ps.map toMap) vmin vmax) = .ok r) ↔
      ∀ i j, Stretch s.z.length (· ∈ is) i j → ∃ t ∈ T, i ≤ t.1 ∧ (t.1 : Int) < j) ∧
    ∀ w ds, (s.splitByIndices is >>= fun ps => plot2d (fun _ _ => 1) (ps.map toMap) vmin vmax) = .ok (w, ds) →
      Complete s.x s.y s.z T ds ∧ ds.length = is.length + 1 ∧
      ∀ k (hk : k < is.length), ((((ds.take (k + 1)).flatMap fun d => List.zip d.xs (columns d)).length : Nat) : Int) =
        is[k] := by
  have hp : ((0 : Int) :: is).Pairwise (· < ·) := List.pairwise_cons.2 ⟨fun i hi => (hb.2 i hi).1, hb.1⟩
  have hpos := fun r (hr : r ∈ rangesFrom 0 is) => range_pos hp le_rfl (by omega) (fun i hi => (hb.2 i hi).2) hr
  have hTi : ∀ t ∈ intTicks T, t.1 < s.z.length := by
    intro t ht
    obtain ⟨q, hq, rfl⟩ := List.mem_map.1 ht
    have := hTn q hq
    show (q.1 : Int) < s.z.length
    omega
  have hsub := fun r (hr' : r ∈ rangesFrom 0 is) => subplot s hx hy hyb hr (intTicks T) hT hTi r (hpos r hr').1
    (hpos r hr').2.1 (hpos r hr').2.2
  obtain ⟨g, nrm, hg⟩ := plot2d_of (rangesFrom 0 is) (rangesFrom_ne_nil _ _) (fun r => toMap (piece s r))
    (fun r hr' => (hsub r hr' (0, 0)).1) vmin vmax
  have hmain : (s.splitByIndices is >>= fun ps => plot2d (fun _ _ => 1) (ps.map toMap) vmin vmax) =
      (((rangesFrom 0 is).mapM fun r => plot2dToAxis (toMap (piece s r)) nrm) >>= fun d => .ok (g, d)) := by
    rw [split_eq s hx hy is, ← hg]
    show plot2d _ (((rangesFrom 0 is).map (piece s)).map toMap) vmin vmax = _
    rw [List.map_map]
    rfl
  rw [hmain, stretch_iff s.z.length h0 T hTn is hb]
  constructor
  · constructor
    · rintro ⟨res, hres⟩ r hr' hem
      obtain ⟨ds, hds, -⟩ := bind_ok hres
      rw [mapM_ok_iff] at hds
      have : ∀ {l : List (Int × Option Int)} {m : List (Image ℝ)},
          List.Forall₂ (fun r d => plot2dToAxis (toMap (piece s r)) nrm = .ok d) l m →
          ∀ r ∈ l, ∃ d, plot2dToAxis (toMap (piece s r)) nrm = .ok d := by
        intro l m h
        induction h with
        | nil => simp
        | cons h1 _ ih =>
          intro r hr
          rcases List.mem_cons.1 hr with rfl | hr
          · exact ⟨_, h1⟩
          · exact ih r hr
      obtain ⟨d, hd⟩ := this hds r hr'
      rw [(hsub r hr' nrm).2.1 hem] at hd
      cases hd
    · intro h
      have key : ∀ l : List (Int × Option Int), (∀ r ∈ l, ∃ d, plot2dToAxis (toMap (piece s r)) nrm = .ok d) →
          ∃ ds, (l.mapM fun r => plot2dToAxis (toMap (piece s r)) nrm) = .ok ds := by
        intro l
        induction l with
        | nil => intro _; exact ⟨[], rfl⟩
        | cons r l ih =>
          intro h
          obtain ⟨d, hd⟩ := h r (by simp)
          obtain ⟨ds, hds⟩ := ih fun r hr => h r (by simp [hr])
          refine ⟨d :: ds, ?_⟩
          rw [List.mapM_cons, hd, hds]
          rfl
      obtain ⟨ds, hds⟩ := key _ fun r hr' => by
        obtain ⟨d, hd, -⟩ := (hsub r hr' nrm).2.2 (h r hr')
        exact ⟨d, hd⟩
      exact ⟨(g, ds), by rw [hds]; rfl⟩
  · intro w ds hres
    obtain ⟨ds', hds, h2⟩ := bind_ok hres
    cases h2
    rw [mapM_ok_iff] at hds
    have hok : ∀ r ∈ rangesFrom 0 is, ∀ d, plot2dToAxis (toMap (piece s r)) nrm = .ok d →
        List.zip d.xs (columns d) = pySlice (List.zip s.x s.z) r.1 r.2 ∧ d.ys = midpoints s.y ∧ d.norm = nrm ∧
      (match d.ticks with | none => [] | some k => List.zip k.at_ k.labels) =
        ((intTicks T).filter fun p => inRange r p.1).map fun t => (s.x.getD t.1.toNat 0, t.2) := by
      intro r hr' d hd
      by_cases hem : (intTicks T).filter (fun p => inRange r p.1) = []
      · rw [(hsub r hr' nrm).2.1 hem] at hd
        cases hd
      · obtain ⟨d', hd', q⟩ := (hsub r hr' nrm).2.2 hem
        rw [hd] at hd'
        cases hd'
        exact q
    have hzip : (List.zip s.x s.z).length = s.z.length := by
      rw [List.length_zip, hx, Nat.min_self]
    refine ⟨⟨?_, ?_, ?_, ?_⟩, ?_, ?_⟩
    · rw [List.flatMap_def, map_of_forall₂ hds (fun r => pySlice (List.zip s.x s.z) r.1 r.2) _
        fun r hr' d hd => (hok r hr' d hd).1]
      rw [flatten_slices _ s.z.length (by rw [hzip]) 0 is hb.valid.good]
      rfl
    · intro d hd
      obtain ⟨r, hr', h⟩ := mem_of_forall₂ hds d hd
      exact (hok r hr' d h).2.1
    · rw [List.flatMap_def, map_of_forall₂ hds (fun r => ((intTicks T).filter fun p => inRange r p.1).map
        fun t => (s.x.getD t.1.toNat 0, t.2)) _ fun r hr' d hd => (hok r hr' d hd).2.2.2]
      rw [← Function.comp_def (List.map _), ← List.map_map, ← List.map_flatten, flatten_filter]
      · rw [List.filter_eq_self.2]
        · unfold intTicks
          rw [List.map_map]
          rfl
        · intro p hp
          obtain ⟨q, -, rfl⟩ := List.mem_map.1 hp
          simp
      · unfold intTicks
        rw [List.pairwise_map]
        exact hTs.imp fun h => by simpa using h
      · exact hp.imp fun h => le_of_lt h
    · intro a ha b hb'
      obtain ⟨r, hr', h⟩ := mem_of_forall₂ hds a ha
      obtain ⟨r2, hr2, h2⟩ := mem_of_forall₂ hds b hb'
      rw [(hok r hr' a h).2.2.1, (hok r2 hr2 b h2).2.2.1]
    · rw [← hds.length_eq, length_rangesFrom]
    · intro k hk
      rw [List.flatMap_def, List.length_flatten, List.map_map, List.map_take]
      rw [map_of_forall₂ hds (fun r => (pySlice (List.zip s.x s.z) r.1 r.2).length) _
        fun r hr' d hd => by simp only [Function.comp_def]; rw [(hok r hr' d hd).1]]
      have := sum_lengths_take (List.zip s.x s.z) s.z.length (by rw [hzip]) 0 is hb.valid.good k hk
      rw [this]
      omega

end Draw

/-! ## C110 -/

section C110

/-- The intensities that must be shown: those of the map, broadened if wanted and scaled. -/
def Shown (a : Args) (x bins : List ℝ) (rows z : List (List ℝ)) : Prop :=
  z.length = rows.length ∧ (∀ r ∈ z, r.length = a.ebins) ∧ ∃ f : Fin rows.length → Fin a.ebins → ℝ,
    (a.qBroadening = none → a.energyBroadening = none → ∀ i j, f i j = entry rows i j) ∧
    (a.qBroadening ≠ none ∨ a.energyBroadening ≠ none → Broaden.broaden2d a.shape (some "convolve") x bins a.qBroadening
      (a.energyBroadening.map Prod.fst) (fun i j => entry rows i.val j.val) = .ok f) ∧
    ∀ (i : Fin rows.length) (j : Fin a.ebins), entry z i j = f i j * a.scale.getD 1

theorem ext_entries (n m : Nat) (z z' : List (List ℝ)) (h1 : z.length = n) (h2 : z'.length = n)
    (h3 : ∀ r ∈ z, r.length = m) (h4 : ∀ r ∈ z', r.length = m) (h : ∀ i < n, ∀ j < m, entry z i j = entry z' i j) :
    z = z' := by
  apply List.ext_getElem (by omega)
  intro i hi hi'
  have g1 := h3 _ (List.getElem_mem hi)
  have g2 := h4 _ (List.getElem_mem hi')
  apply List.ext_getElem (by omega)
  intro j hj hj'
  have := h i (by omega) j (by omega)
  unfold entry at this
  rwa [List.getD_eq_getElem _ _ hi, List.getD_eq_getElem _ _ hi', List.getD_eq_getElem _ _ hj,
    List.getD_eq_getElem _ _ hj'] at this

theorem entry_map (z : List (List ℝ)) (k : ℝ) (i j : Nat) : entry (z.map fun r => r.map (· * k)) i j = entry z i j * k := by
  unfold entry
  simp only [List.getD_eq_getElem?_getD, List.getElem?_map]
  cases h : z[i]? with
  | none => simp
  | some r =>
    simp only [Option.map_some, Option.getD_some, List.getElem?_map]
    cases r[j]? <;> simp

theorem entry_ofFn (n m : Nat) (f : Fin n → Fin m → ℝ) (i : Fin n) (j : Fin m) :
    entry (List.ofFn fun i => List.ofFn fun j => f i j) i j = f i j := by
  unfold entry
  simp only [List.getD_eq_getElem?_getD, List.getElem?_ofFn, i.isLt, j.isLt, dif_pos, Option.getD_some]

/-- Broadening, labels and scaling. -/
theorem shown_of (a : Args) (x bins : List ℝ) (rows z : List (List ℝ)) (t0 : List (Int × String))
    (T : List (Nat × String)) (hT : T ≠ []) (hr : ∀ r ∈ rows, r.length = a.ebins) (hz : Shown a x bins rows z) :
    ∃ s, broaden a ⟨x, bins, a.ebins, rows, some t0, ()⟩ = .ok s ∧
      scaled a (setLabels s T) = ⟨x, bins, a.ebins, z, some (intTicks T), ()⟩ := by
  obtain ⟨z1, z2, f, f1, f2, f3⟩ := hz
  have hset : ∀ z', setLabels ⟨x, bins, a.ebins, z', some t0, ()⟩ T = ⟨x, bins, a.ebins, z', some (intTicks T), ()⟩ := by
    intro z'
    unfold setLabels
    rw [if_neg (by simpa using hT)]
  have hsc : ∀ (z' : List (List ℝ)), z'.length = rows.length → (∀ r ∈ z', r.length = a.ebins) →
      (∀ (i : Fin rows.length) (j : Fin a.ebins), entry z' i j = f i j) →
      scaled a ⟨x, bins, a.ebins, z', some (intTicks T), ()⟩ = ⟨x, bins, a.ebins, z, some (intTicks T), ()⟩ := by
    intro z' h1 h2 h3
    unfold scaled
    cases hs : a.scale with
    | none =>
      simp only
      congr 1
      apply ext_entries rows.length a.ebins _ _ h1 z1 h2 z2
      intro i hi j hj
      have e1 := h3 ⟨i, hi⟩ ⟨j, hj⟩
      have e2 := f3 ⟨i, hi⟩ ⟨j, hj⟩
      rw [hs] at e2
      simp only [Option.getD_none, mul_one] at e1 e2
      rw [e1, e2]
    | some k =>
      simp only
      congr 1
      apply ext_entries rows.length a.ebins _ _ (by simpa using h1) z1 _ z2
      · intro i hi j hj
        have e1 := h3 ⟨i, hi⟩ ⟨j, hj⟩
        have e2 := f3 ⟨i, hi⟩ ⟨j, hj⟩
        rw [hs] at e2
        simp only [Option.getD_some] at e1 e2
        rw [entry_map, e1, e2]
      · intro r hr'
        obtain ⟨r', hr'', rfl⟩ := List.mem_map.1 hr'
        simpa using h2 r' hr''
  by_cases hb : a.qBroadening = none ∧ a.energyBroadening = none
  · refine ⟨⟨x, bins, a.ebins, rows, some t0, ()⟩, ?_, ?_⟩
    · simp [broaden, hb.1, hb.2]
    · rw [hset, hsc rows rfl hr fun i j => (f1 hb.1 hb.2 i j).symm]
  · have hb' : a.qBroadening ≠ none ∨ a.energyBroadening ≠ none := by
      by_contra h
      push Not at h
      exact hb h
    refine ⟨⟨x, bins, a.ebins, List.ofFn fun i => List.ofFn fun j => f i j, some t0, ()⟩, ?_, ?_⟩
    · unfold broaden
      rw [if_pos]
      · simp only
        rw [f2 hb']
        rfl
      · rw [Bool.or_eq_true, Option.isSome_iff_ne_none, Option.isSome_iff_ne_none]
        exact hb'
    · rw [hset, hsc]
      · simp
      · intro r hr'
        obtain ⟨i, rfl⟩ := List.mem_ofFn.1 hr'
        simp
      · intro i j
        exact entry_ofFn _ _ f i j

/-- The intensities calculated for phonons: the structure factor or the density of states, over energy bins. -/
structure Computed (unit room : ℝ) (sqw : Option ℝ → Bands → List ℝ → Except Err (List (List ℝ))) (a : Args) (b : Bands)
    (bins : List ℝ) (rows : List (List ℝ)) : Prop where
  edges : Cli.energyBins (displayed unit b) (a.ebins + 1) a.eMin a.eMax (105 / 100) room = .ok bins
  coherent : a.coherent = true → sqw a.temperature b bins = .ok rows
  dos : a.coherent = false → Dos.calculateDosMap (1 / unit) bins (fun (q : Fin b.qpts.length) (m : Fin b.nModes) =>
    (b.freqs.getD q.val []).getD m.val 0) (fun _ => 1) = .ok rows
  some : 0 < a.ebins
  qpts : rows.length = b.qpts.length
  row : ∀ r ∈ rows, r.length = a.ebins

theorem Computed.computed {unit room : ℝ} {sqw : Option ℝ → Bands → List ℝ → Except Err (List (List ℝ))} {a : Args} {b : Bands}
    {bins : List ℝ} {rows : List (List ℝ)} (h : Computed unit room sqw a b bins rows) :
    intensities sqw unit a b bins = .ok rows := by
  unfold intensities
  cases hc : a.coherent with
  | true => exact h.coherent hc
  | false => exact h.dos hc

theorem bins_length {freqs : List ℝ} {n : Nat} {lo hi : Option ℝ} {h r : ℝ} {bins : List ℝ}
    (hb : Cli.energyBins freqs n lo hi h r = .ok bins) : bins.length = n := by
  unfold Cli.energyBins at hb
  obtain ⟨l, -, hb⟩ := bind_ok hb
  obtain ⟨u, -, hb⟩ := bind_ok hb
  split at hb
  · cases hb
  · cases hb
    simp [Cli.linspace]

/-- The common part of the two theorems below. -/
theorem main_of (recip : M3 ℝ) (table : List (String × V3 ℝ)) (coordText : V3 ℝ → String) (unit room : ℝ)
    (sqw : Option ℝ → Bands → List ℝ → Except Err (List (List ℝ))) (a : Args) (d : Data) (b : Bands) (hb : b.WF)
    (hd : checkData a d = .ok ()) (T : List (Nat × String)) (sa : SplitArgs) (hsa : bandsOf table coordText a d =
      .ok (b, T, sa)) (hT : T ≠ []) (hTs : T.Pairwise fun s t => s.1 ≤ t.1) (hTn : ∀ t ∈ T, t.1 < b.qpts.length)
    (is : List Int) (his : StrictBreaks b.qpts.length is)
    (hsi : ∀ s : Spec2D ℝ Unit, s.x = calcAbscissa recip b.qpts → splitMap s sa = s.splitByIndices is)
    (bins : List ℝ) (rows z : List (List ℝ)) (hc : Computed unit room sqw a b bins rows)
    (hz : Shown a (calcAbscissa recip b.qpts) bins rows z) :
    ((∃ r, intensityMain recip table coordText unit room sqw a d = .ok r) ↔
      ∀ i j, Stretch b.qpts.length (· ∈ is) i j → ∃ t ∈ T, i ≤ t.1 ∧ (t.1 : Int) < j) ∧
    ∀ w ds, intensityMain recip table coordText unit room sqw a d = .ok (w, ds) →
      Complete (calcAbscissa recip b.qpts) bins z T ds ∧ ds.length = is.length + 1 ∧
      ∀ k (hk : k < is.length), ((((ds.take (k + 1)).flatMap fun d => List.zip d.xs (columns d)).length : Nat) : Int) =
        is[k] := by
  have hn : 0 < b.qpts.length := List.length_pos_iff.2 hb.qpts
  have hxl := (C34_length_and_start recip b.qpts hb.qpts).1
  have hbl := bins_length hc.edges
  have hzl : z.length = b.qpts.length := by rw [hz.1, hc.qpts]
  obtain ⟨s, hs1, hs2⟩ := shown_of a _ bins rows z (intTicks (qpointLabels table coordText b.qpts)) T hT hc.row hz
  have hmain : intensityMain recip table coordText unit room sqw a d =
      ((⟨calcAbscissa recip b.qpts, bins, a.ebins, z, some (intTicks T), ()⟩ : Spec2D ℝ Unit).splitByIndices is >>=
        fun ps => plot2d (fun _ _ => 1) (ps.map toMap) a.vmin a.vmax) := by
    unfold intensityMain
    rw [hd, hsa]
    simp only [bind, Except.bind]
    rw [hc.edges]
    simp only
    rw [hc.computed]
    simp only
    rw [show Spec2D.new (calcAbscissa recip b.qpts) bins a.ebins rows
      (some (intTicks (qpointLabels table coordText b.qpts))) () = .ok ⟨_, _, _, _, _, _⟩ from if_pos
        ⟨Or.inl (by rw [hxl, hc.qpts]), Or.inr hbl⟩]
    simp only
    rw [hs1]
    simp only
    rw [hs2, hsi _ rfl]
  rw [hmain]
  have := draw ⟨calcAbscissa recip b.qpts, bins, a.ebins, z, some (intTicks T), ()⟩ (by simp only; omega)
    (by simp only; omega) hbl hc.some hz.2.1 T rfl hTs (by simp only; rw [hzl]; exact hTn) is
    (by simp only; rw [hzl]; exact his) a.vmin a.vmax
  simp only [hzl] at this
  exact this

/-- **C110**: the map of phonons read from a file is drawn if and only if every stretch between gaps has a labelled
q-point.  What is drawn then: the intensities at every q-point, once, at its distance along the path, broadened with the
first number of `--energy-broadening` and scaled, all labels at their q-points, and a new image at every gap.
Missing: paths with stretches without labels (`C110_stretch_without_label`), and the other numbers of
`--energy-broadening` (`C110_coefficients_ignored`). -/
theorem C110_file_partial (recip : M3 ℝ) (table : List (String × V3 ℝ)) (coordText : V3 ℝ → String) (unit room : ℝ)
    (sqw : Option ℝ → Bands → List ℝ → Except Err (List (List ℝ))) (a : Args) (d : Data) (b : Bands) (hb : b.WF)
    (hd : d = .modes b ∧ (a.coherent = true → a.temperature = none) ∨ d = .frequencies b ∧ a.coherent = false)
    (bins : List ℝ) (rows z : List (List ℝ)) (hc : Computed unit room sqw a b bins rows)
    (hz : Shown a (calcAbscissa recip b.qpts) bins rows z) :
    ((∃ r, intensityMain recip table coordText unit room sqw a d = .ok r) ↔
      ∀ i j, Stretch b.qpts.length (IsGap (calcAbscissa recip b.qpts) a.btol) i j →
        ∃ k, Labelled b.qpts k ∧ i ≤ k ∧ (k : Int) < j) ∧
    ∀ w ds, intensityMain recip table coordText unit room sqw a d = .ok (w, ds) →
      Complete (calcAbscissa recip b.qpts) bins z (qpointLabels table coordText b.qpts) ds ∧
      ∃ gaps : List Int, gaps.Pairwise (· < ·) ∧ (∀ k, k ∈ gaps ↔ IsGap (calcAbscissa recip b.qpts) a.btol k) ∧
        ds.length = gaps.length + 1 ∧ ∀ k (hk : k < gaps.length), ((((ds.take (k + 1)).flatMap fun d =>
          List.zip d.xs (columns d)).length : Nat) : Int) = gaps[k] := by
  have hn : 0 < b.qpts.length := List.length_pos_iff.2 hb.qpts
  have h1 : checkData a d = .ok () := by
    rcases hd with ⟨rfl, h⟩ | ⟨rfl, h⟩
    · cases hco : a.coherent with
      | true => simp [checkData, h hco]
      | false => simp [checkData, hco]
    · simp [checkData, h]
  have h2 : bandsOf table coordText a d = .ok (b, qpointLabels table coordText b.qpts, .btol a.btol) := by
    rcases hd with ⟨rfl, h⟩ | ⟨rfl, h⟩ <;> rfl
  have hsorted := abscissa_sorted recip b.qpts hb.qpts
  have hlen := (C34_length_and_start recip b.qpts hb.qpts).1
  obtain ⟨l1, l2⟩ := C35_labelled_points table coordText b.qpts
  have hbr : StrictBreaks b.qpts.length (breakpoints (calcAbscissa recip b.qpts) a.btol) := by
    refine ⟨(whereTrue_pairwise _ _).1, ?_⟩
    intro i hi
    rw [mem_breakpoints _ _ (median_nonneg_of_sorted _ hsorted)] at hi
    obtain ⟨k, hk, rfl, -⟩ := hi
    omega
  have hT : qpointLabels table coordText b.qpts ≠ [] := by
    intro h
    have := (l2 0).2 ⟨hn, Or.inl rfl⟩
    rw [h] at this
    simp at this
  obtain ⟨k1, k2⟩ := main_of recip table coordText unit room sqw a d b hb h1 _ _ h2 hT
    ((List.pairwise_map.1 l1).imp fun h => le_of_lt h)
    (fun t ht => ((l2 t.1).1 (List.mem_map.2 ⟨t, ht, rfl⟩)).1) _ hbr
    (by intro s hs; unfold splitMap; simp only; rw [hs]) bins rows z hc hz
  refine ⟨?_, ?_⟩
  · rw [k1]
    have hgap : IsGap (calcAbscissa recip b.qpts) a.btol = (· ∈ breakpoints (calcAbscissa recip b.qpts) a.btol) := by
      funext k
      exact propext (isGap_iff _ hsorted _ _)
    rw [hgap]
    constructor
    · intro h i j hs
      obtain ⟨t, ht, h1, h2⟩ := h i j hs
      exact ⟨t.1, (l2 t.1).1 (List.mem_map.2 ⟨t, ht, rfl⟩), h1, h2⟩
    · intro h i j hs
      obtain ⟨k, hk, h1, h2⟩ := h i j hs
      obtain ⟨t, ht, rfl⟩ := List.mem_map.1 ((l2 k).2 hk)
      exact ⟨t, ht, h1, h2⟩
  · intro w ds h
    obtain ⟨c1, c2, c3⟩ := k2 w ds h
    exact ⟨c1, _, hbr.1, fun k => (isGap_iff _ hsorted _ _).symm, c2, c3⟩

/-- **C110**: for force constants the map along the path of Seekpath is always drawn, with every label of the path at its
point, and a new image exactly where two neighbouring points have different labels. -/
theorem C110_force_constants (recip : M3 ℝ) (table : List (String × V3 ℝ)) (coordText : V3 ℝ → String) (unit room : ℝ)
    (sqw : Option ℝ → Bands → List ℝ → Except Err (List (List ℝ))) (a : Args) (kpts : List (V3 ℝ)) (labels : List String)
    (run : List (V3 ℝ) → Except Err Bands) (b : Bands) (hb : b.WF) (hlen : kpts.length = labels.length)
    (l0 : String) (hl0 : labels[0]? = some l0) (hne : l0 ≠ "") (hrun : run kpts = .ok b) (hq : b.qpts = kpts)
    (bins : List ℝ) (rows z : List (List ℝ)) (hc : Computed unit room sqw a b bins rows)
    (hz : Shown a (calcAbscissa recip kpts) bins rows z) :
    ∃ w ds T, intensityMain recip table coordText unit room sqw a (.fc kpts labels run) = .ok (w, ds) ∧
      Complete (calcAbscissa recip kpts) bins z T ds ∧
      (∀ i s, (i, s) ∈ T ↔ ∃ l, labels[i]? = some l ∧ l ≠ "" ∧ s = Cli.shown l) ∧
      ∃ breaks : List Int, breaks.Pairwise (· < ·) ∧
        (∀ k, k ∈ breaks ↔ ∃ (i : Nat) (l l' : String), k = (i : Int) + 1 ∧ labels[i]? = some l ∧
          labels[i + 1]? = some l' ∧ l ≠ "" ∧ l' ≠ "" ∧ l ≠ l') ∧
        ds.length = breaks.length + 1 ∧ ∀ k (hk : k < breaks.length), ((((ds.take (k + 1)).flatMap fun d =>
          List.zip d.xs (columns d)).length : Nat) : Int) = breaks[k] := by
  subst hq
  obtain ⟨t1, t2⟩ := Cli.C71_ticks labels
  obtain ⟨b1, b2⟩ := Cli.C71_breaks labels
  have hTn : ∀ t ∈ Cli.tickLabels labels, t.1 < b.qpts.length := by
    intro t ht
    obtain ⟨l, hl, -⟩ := (t2 t.1 t.2).1 ht
    rw [hlen]
    exact (List.getElem?_eq_some_iff.1 hl).1
  have hbr : StrictBreaks b.qpts.length ((Cli.breakPoints labels).map Int.ofNat) := by
    refine ⟨?_, ?_⟩
    · rw [List.pairwise_map]
      exact b1.imp fun h => by simpa using h
    · intro i hi
      obtain ⟨k, hk, rfl⟩ := List.mem_map.1 hi
      obtain ⟨j, x, y, rfl, -, hy, -⟩ := (b2 k).1 hk
      have := (List.getElem?_eq_some_iff.1 hy).1
      rw [hlen]
      simp only [Int.ofNat_eq_natCast]
      omega
  have hT : Cli.tickLabels labels ≠ [] := by
    intro h
    have := (t2 0 (Cli.shown l0)).2 ⟨l0, hl0, hne, rfl⟩
    rw [h] at this
    simp at this
  have h2 : bandsOf table coordText a (.fc b.qpts labels run) =
      .ok (b, Cli.tickLabels labels, .indices (Cli.breakPoints labels)) := by
    unfold bandsOf
    simp only
    rw [hrun]
    rfl
  obtain ⟨k1, k2⟩ := main_of recip table coordText unit room sqw a (.fc b.qpts labels run) b hb rfl _ _ h2 hT
    ((List.pairwise_map.1 t1).imp fun h => le_of_lt h) hTn _ hbr (fun s hs => rfl) bins rows z hc hz
  obtain ⟨⟨w, ds⟩, hres⟩ := k1.2 (by
    rintro i j ⟨s1, -, s3, -⟩
    have hi : ∃ k : Nat, i = k ∧ ∃ l, labels[k]? = some l ∧ l ≠ "" := by
      rcases s1 with rfl | s1
      · exact ⟨0, rfl, l0, hl0, hne⟩
      · obtain ⟨k, hk, rfl⟩ := List.mem_map.1 s1
        obtain ⟨j, x, y, rfl, -, hy, -, hy', -⟩ := (b2 k).1 hk
        exact ⟨j + 1, rfl, y, hy, hy'⟩
    obtain ⟨k, rfl, l, hl, hl'⟩ := hi
    exact ⟨(k, Cli.shown l), (t2 k _).2 ⟨l, hl, hl', rfl⟩, le_rfl, s3⟩)
  obtain ⟨c1, c2, c3⟩ := k2 w ds hres
  refine ⟨w, ds, _, hres, c1, t2, _, hbr.1, ?_, c2, c3⟩
  intro k
  constructor
  · intro h
    obtain ⟨k, hk, rfl⟩ := List.mem_map.1 h
    obtain ⟨i, l, l', rfl, h'⟩ := (b2 k).1 hk
    exact ⟨i, l, l', by simp, h'⟩
  · rintro ⟨i, l, l', rfl, h⟩
    exact List.mem_map.2 ⟨i + 1, (b2 _).2 ⟨i, l, l', rfl, h⟩, by simp⟩

/-- **C110**: eigenvectors are needed for coherent scattering, and force constants for its Debye-Waller factor. -/
theorem C110_refused (recip : M3 ℝ) (table : List (String × V3 ℝ)) (coordText : V3 ℝ → String) (unit room : ℝ)
    (sqw : Option ℝ → Bands → List ℝ → Except Err (List (List ℝ))) (a : Args) (b : Bands) (h : a.coherent = true) :
    intensityMain recip table coordText unit room sqw a (.frequencies b) = .error .typeError ∧
    (a.temperature ≠ none → intensityMain recip table coordText unit room sqw a (.modes b) = .error .typeError) := by
  unfold intensityMain
  constructor
  · rw [show checkData a (.frequencies b) = .error .typeError by simp [checkData, h]]
    rfl
  · intro ht
    rw [show checkData a (.modes b) = .error .typeError by simp [checkData, h, Option.isSome_iff_ne_none.2 ht]]
    rfl

/-- **C110**: of the coefficients of the polynomial given with `--energy-broadening` all but the first are ignored,
whatever the data. -/
theorem C110_coefficients_ignored (recip : M3 ℝ) (table : List (String × V3 ℝ)) (coordText : V3 ℝ → String)
    (unit room : ℝ) (sqw : Option ℝ → Bands → List ℝ → Except Err (List (List ℝ))) (a : Args) (d : Data) (c : ℝ)
    (l : List ℝ) : intensityMain recip table coordText unit room sqw { a with energyBroadening := some (c, l) } d =
      intensityMain recip table coordText unit room sqw { a with energyBroadening := some (c, []) } d := rfl

/-- **C110**: without broadening every intensity of the map is shown, times the scale. -/
theorem C110_scaled (a : Args) (x bins : List ℝ) (rows : List (List ℝ)) (hr : ∀ r ∈ rows, r.length = a.ebins)
    (h1 : a.qBroadening = none) (h2 : a.energyBroadening = none) :
    Shown a x bins rows (rows.map fun r => r.map (· * a.scale.getD 1)) := by
  refine ⟨by simp, ?_, fun i j => entry rows i j, fun _ _ _ _ => rfl, ?_, ?_⟩
  · intro r hr'
    obtain ⟨r', h, rfl⟩ := List.mem_map.1 hr'
    simpa using hr r' h
  · rintro (h | h)
    · exact absurd h1 h
    · exact absurd h2 h
  · intro i j
    rw [entry_map]

theorem sum_count (r : List ℝ) (P : ℝ → Bool) (k : ℝ) :
    ∑ m : Fin r.length, (if P (r.getD m.val 0) then k else 0) = ((r.countP P : Nat) : ℝ) * k := by
  induction r with
  | nil => simp
  | cons a r ih =>
    rw [List.countP_cons]
    simp only [List.length_cons, Fin.sum_univ_succ, Fin.val_zero, List.getD_cons_zero, Fin.val_succ, List.getD_cons_succ, ih]
    by_cases h : P a = true
    · simp [h]
      ring
    · simp [h]

/-- **C110**: the density of states at a q-point is shown: in each energy bin the number of its modes with an energy in
the bin, such that all modes of one q-point have three together, divided by the width of the bin. -/
theorem C110_density (unit room : ℝ) (hu : 0 < unit) (sqw : Option ℝ → Bands → List ℝ → Except Err (List (List ℝ)))
    (a : Args) (b : Bands) (hb : b.WF) (ha : a.coherent = false) (h0 : 0 < a.ebins) (bins : List ℝ)
    (hbins : Cli.energyBins (displayed unit b) (a.ebins + 1) a.eMin a.eMax (105 / 100) room = .ok bins) :
    bins.Pairwise (· < ·) ∧ ∃ rows, Computed unit room sqw a b bins rows ∧ ∀ q < b.qpts.length, ∀ e < a.ebins,
      entry rows q e = (((b.freqs.getD q []).countP fun f => decide (Dos.InBin bins e (f * unit)) : Nat) : ℝ) *
        (3 / b.nModes) / (bins.getD (e + 1) 0 - bins.getD e 0) := by
  have hsort : bins.Pairwise (· < ·) := by
    unfold Cli.energyBins at hbins
    obtain ⟨l, -, hbins⟩ := bind_ok hbins
    obtain ⟨u, -, hbins⟩ := bind_ok hbins
    split at hbins
    · cases hbins
    · rename_i hlu
      have hlu : l < u := not_le.1 hlu
      obtain ⟨e, g1, -, g3, -⟩ := (Cli.C72_limits ([] : List ℝ) (a.ebins + 1) l u 1 1 (by omega)).1 hlu
      have : Cli.energyBins ([] : List ℝ) (a.ebins + 1) (some l) (some u) 1 1 = .ok (Cli.linspace l u (a.ebins + 1)) := by
        show (if l ≥ u then Except.error Err.valueError else .ok (Cli.linspace l u (a.ebins + 1))) = _
        rw [if_neg (not_le.2 hlu)]
      rw [this] at g1
      cases g1
      cases hbins
      exact g3
  have hs : bins.Pairwise (· ≤ ·) := hsort.imp fun h => le_of_lt h
  have hlen := bins_length hbins
  have hc : (0 : ℝ) < 1 / unit := by positivity
  have hrow : ∀ q : Fin b.qpts.length, Dos.calculateDosAt (1 / unit) bins (fun (q : Fin b.qpts.length) (m : Fin b.nModes) =>
      (b.freqs.getD q.val []).getD m.val 0) (fun _ => 1) q = .ok ((List.range (bins.length - 1)).map fun e =>
        (((b.freqs.getD q []).countP fun f => decide (Dos.InBin bins e (f * unit)) : Nat) : ℝ) *
          (3 / b.nModes) / (bins.getD (e + 1) 0 - bins.getD e 0)) := by
    intro q
    have := Dos.C21_dos_counts_modes_in_bin (1 / unit) hc bins hs hb.modes (fun (_ : Fin 1) (m : Fin b.nModes) =>
      (b.freqs.getD q.val []).getD m.val 0) (fun _ => 1)
    unfold Dos.calculateDos at this
    unfold Dos.calculateDosAt
    rw [this]
    congr 1
    apply List.map_congr_left
    intro e _
    simp only [Finset.univ_unique, Finset.sum_const, Finset.card_singleton, one_smul, div_one]
    congr 1
    unfold Dos.binTotal
    have hq : q.val < b.freqs.length := by rw [hb.rows]; exact q.isLt
    rw [List.getD_eq_getElem _ _ hq]
    have hl := hb.row _ (List.getElem_mem hq)
    generalize b.freqs[q.val] = r at hl
    simp only [Finset.univ_unique, Finset.sum_singleton, one_mul, div_div_eq_mul_div, div_one]
    clear this
    generalize b.nModes = N at hl ⊢
    subst hl
    rw [← sum_count]
    apply Finset.sum_congr rfl
    intro m _
    simp only [decide_eq_true_eq]
  refine ⟨hsort, (List.range b.qpts.length).map fun q => (List.range (bins.length - 1)).map fun e =>
    (((b.freqs.getD q []).countP fun f => decide (Dos.InBin bins e (f * unit)) : Nat) : ℝ) *
      (3 / b.nModes) / (bins.getD (e + 1) 0 - bins.getD e 0), ⟨hbins, fun hc => by simp [ha] at hc, fun _ => ?_, h0, ?_, ?_⟩, ?_⟩
  · unfold Dos.calculateDosMap
    rw [mapM_ok_of_forall _ _ _ fun q _ => hrow q]
    congr 1
    apply List.ext_getElem <;> simp
  · simp
  · intro r hr
    obtain ⟨q, -, rfl⟩ := List.mem_map.1 hr
    simp [hlen]
  · intro q hq e he
    unfold entry
    simp [List.getD_eq_getElem?_getD, hq, hlen, he]

/-- **C110**: broadening along the path does not see where the q-points are between its ends: it is the same for all
paths of the same length with the same number of points, whatever their gaps. -/
theorem C110_broadening_ignores_gaps (shape : String) {n m : Nat} (x x' y : List ℝ) (wx wy : Option ℝ)
    (d : Fin n → Fin m → ℝ) (hx : x.length = n) (hx' : x'.length = n) (h1 : x.head? = x'.head?)
    (h2 : x.getLast? = x'.getLast?) : Broaden.broaden2d shape (some "convolve") x y wx wy d =
      Broaden.broaden2d shape (some "convolve") x' y wx wy d := by
  have hlen : (npDiff x).length = (npDiff x').length := by rw [length_npDiff, length_npDiff, hx, hx']
  have hlast : x.getLastD 0 = x'.getLastD 0 := by
    rw [List.getLastD_eq_getLast?, List.getLastD_eq_getLast?, h2]
  have hhead : x.headD 0 = x'.headD 0 := by
    rw [List.headD_eq_head?_getD, List.headD_eq_head?_getD, h1]
  have hsum : ∀ x : List ℝ, (npDiff x).sum = x.getLastD 0 - x.headD 0 := by
    intro x
    cases x with
    | nil => simp [npDiff]
    | cons a l => rw [sum_npDiff l a, List.getLastD_eq_getLast?, List.getLast?_eq_some_getLast (by simp)]; simp
  have hsig : ∀ w, Broaden.gfwhmToSigma w x = Broaden.gfwhmToSigma w x' := by
    intro w
    unfold Broaden.gfwhmToSigma
    rw [hlen, hsum, hsum, hlast, hhead]
  have hdist : ∀ w, Broaden.distribution1d x w = Broaden.distribution1d x' w := by
    intro w
    unfold Broaden.distribution1d Broaden.distBins
    rw [hx, hx', hlast, hhead]
  have hfx : Broaden.filterX shape x wx d = Broaden.filterX shape x' wx d := by
    unfold Broaden.filterX Broaden.axisFilter
    cases wx with
    | none => rfl
    | some w => simp only [hsig, hdist]
  have hch : ∀ cy, Broaden.checks shape (some "convolve") x wx cy wy = Broaden.checks shape (some "convolve") x' wx cy wy := by
    intro cy
    unfold Broaden.checks Broaden.equalBins
    cases wx with
    | none => rfl
    | some w =>
      simp only
      cases h3 : npDiff x with
      | nil =>
        cases h4 : npDiff x' with
        | nil => rfl
        | cons _ _ => rw [h3, h4] at hlen; simp at hlen
      | cons _ _ =>
        cases h4 : npDiff x' with
        | nil => rw [h3, h4] at hlen; simp at hlen
        | cons _ _ => simp [bind, Except.bind]
  unfold Broaden.broaden2d
  rw [getBinCentres_centres n x hx, getBinCentres_centres n x' hx']
  simp only [bind, Except.bind, hch, hfx]

/-! Examples -/

/-- A map of the density of states in four bins, scaled by two. -/
noncomputable def plain (btol : ℝ) : Args where
  coherent := false
  temperature := none
  btol := btol
  ebins := 4
  eMin := none
  eMax := none
  qBroadening := none
  energyBroadening := none
  shape := "gauss"
  scale := some 2
  vmin := none
  vmax := none

theorem plain_computed (sqw : Option ℝ → Bands → List ℝ → Except Err (List (List ℝ))) (btol : ℝ) :
    ∃ bins rows, Computed 1 (1 / 10 ^ 5) sqw (plain btol) pairBands bins rows := by
  obtain ⟨bins, -, -, h, -⟩ := Cli.C72_covers_partial (displayed 1 pairBands) 5 (105 / 100) (1 / 10 ^ 5) (by norm_num)
    (by norm_num) (by norm_num) ⟨1, by simp [displayed, pairBands], by norm_num⟩
  obtain ⟨-, rows, hr, -⟩ := C110_density 1 (1 / 10 ^ 5) one_pos sqw (plain btol) pairBands pairBands_wf rfl (by simp [plain])
    bins h
  exact ⟨bins, rows, hr⟩

/-- **C110**: the map of phonons in three pairs of q-points along a line, with gaps between the pairs, cannot be drawn:
there is no labelled q-point in the middle part. -/
theorem C110_stretch_without_label (table : List (String × V3 ℝ)) (coordText : V3 ℝ → String)
    (sqw : Option ℝ → Bands → List ℝ → Except Err (List (List ℝ))) : pairBands.WF ∧ ∃ e,
      intensityMain unitM table coordText 1 (1 / 10 ^ 5) sqw (plain 10) (.modes pairBands) = .error e := by
  refine ⟨pairBands_wf, ?_⟩
  obtain ⟨bins, rows, hc⟩ := plain_computed sqw 10
  have h := (C110_file_partial unitM table coordText 1 (1 / 10 ^ 5) sqw (plain 10) (.modes pairBands) pairBands pairBands_wf
    (Or.inl ⟨rfl, fun _ => rfl⟩) bins rows _ hc (C110_scaled _ _ _ _ hc.row rfl rfl)).1
  have h' := (C109_file_partial unitM table coordText 1 .ok ⟨false, 10⟩ (.modes pairBands) pairBands pairBands
    (Or.inl rfl) ⟨by simp, by simp⟩ pairBands_wf).1
  obtain ⟨-, e', he'⟩ := C109_stretch_without_label table coordText 1 .ok
  cases hr : intensityMain unitM table coordText 1 (1 / 10 ^ 5) sqw (plain 10) (.modes pairBands) with
  | error e => exact ⟨e, rfl⟩
  | ok r =>
    obtain ⟨r', hr'⟩ := h'.2 (h.1 ⟨r, hr⟩)
    rw [he'] at hr'
    cases hr'

/-- With a larger tolerance the same map is drawn. -/
example (table : List (String × V3 ℝ)) (coordText : V3 ℝ → String)
    (sqw : Option ℝ → Bands → List ℝ → Except Err (List (List ℝ))) : ∃ w ds bins rows,
    intensityMain unitM table coordText 1 (1 / 10 ^ 5) sqw (plain 40) (.frequencies pairBands) = .ok (w, ds) ∧
      Complete (calcAbscissa unitM pairs) bins rows (qpointLabels table coordText pairs) ds ∧ ds.length = 1 := by
  have hg : ∀ k, ¬ IsGap (calcAbscissa unitM pairBands.qpts) 40 k := by
    rintro k ⟨i, h, rfl, hg⟩
    change i + 1 < (calcAbscissa unitM pairs).length at h
    have hg := hg _ median_pairs
    simp only [pairBands, abscissa_pairs] at h hg
    simp only [List.length_cons, List.length_nil] at h
    have : i < 5 := by omega
    interval_cases i <;> norm_num at hg
  obtain ⟨bins, rows, hc⟩ := plain_computed sqw 40
  obtain ⟨h1, h2⟩ := C110_file_partial unitM table coordText 1 (1 / 10 ^ 5) sqw (plain 40) (.frequencies pairBands) pairBands
    pairBands_wf (Or.inr ⟨rfl, rfl⟩) bins rows _ hc (C110_scaled _ _ _ _ hc.row rfl rfl)
  obtain ⟨⟨w, ds⟩, hr⟩ := h1.2 (by
    rintro i j ⟨s1, s2, s3, -⟩
    rcases s1 with rfl | s1
    · exact ⟨0, ⟨by simp [pairBands, pairs], Or.inl rfl⟩, by simp, by simpa using s3⟩
    · exact absurd s1 (hg i))
  obtain ⟨c1, gaps, -, g2, g3, -⟩ := h2 w ds hr
  refine ⟨w, ds, bins, _, hr, c1, ?_⟩
  have : gaps = [] := List.eq_nil_iff_forall_not_mem.2 fun k hk => hg k ((g2 k).1 hk)
  rw [g3, this]
  rfl

/-- The path through the three pairs and a path without gaps are broadened in the same way. -/
example (d : Fin 6 → Fin 4 → ℝ) (y : List ℝ) : Broaden.broaden2d "gauss" (some "convolve") (calcAbscissa unitM pairs) y
    (some 1) none d = Broaden.broaden2d "gauss" (some "convolve")
      [0, 71 / 40, 2 * 71 / 40, 3 * 71 / 40, 4 * 71 / 40, 71 / 8] y (some 1) none d := by
  rw [abscissa_pairs]
  exact C110_broadening_ignores_gaps _ _ _ _ _ _ _ rfl rfl rfl rfl

/-- A path of Seekpath with a break, drawn in two images. -/
example (table : List (String × V3 ℝ)) (coordText : V3 ℝ → String)
    (sqw : Option ℝ → Bands → List ℝ → Except Err (List (List ℝ))) : ∃ w ds,
    intensityMain unitM table coordText 1 (1 / 10 ^ 5) sqw (plain 10)
      (.fc pairs ["GAMMA", "", "X", "U", "", "K"] fun _ => .ok pairBands) = .ok (w, ds) ∧ ds.length = 2 := by
  obtain ⟨bins, rows, hc⟩ := plain_computed sqw 10
  obtain ⟨w, ds, T, h1, -, -, breaks, h2, h3, h4, -⟩ := C110_force_constants unitM table coordText 1 (1 / 10 ^ 5) sqw (plain 10)
    pairs ["GAMMA", "", "X", "U", "", "K"] (fun _ => .ok pairBands) pairBands pairBands_wf rfl "GAMMA" rfl (by decide) rfl rfl
    bins rows _ hc (C110_scaled _ _ _ _ hc.row rfl rfl)
  refine ⟨w, ds, h1, ?_⟩
  have hb : ∀ k, k ∈ breaks ↔ k = 3 := by
    intro k
    rw [h3]
    constructor
    · rintro ⟨i, l, l', rfl, g1, g2, g3, g4, g5⟩
      have hi : i + 1 < 6 := (List.getElem?_eq_some_iff.1 g2).1
      have : i < 5 := by omega
      interval_cases i <;> simp at g1 g2 <;> subst g1 <;> subst g2 <;> simp_all
    · rintro rfl
      exact ⟨2, "X", "U", by norm_num, rfl, rfl, by decide, by decide, by decide⟩
  have : breaks = [3] := by
    apply List.Perm.eq_of_pairwise (le := (· < ·)) (fun a b _ _ h1 h2 => by omega) h2 (by simp)
    rw [List.perm_ext_iff_of_nodup (h2.imp fun h => ne_of_lt h) (by simp)]
    simpa using hb
  rw [h4, this]
  rfl

end C110

end Euphonic.IntensityCli
