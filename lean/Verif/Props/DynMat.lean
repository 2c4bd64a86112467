import Verif.Model.DynMat
import Verif.Props.Images
import Mathlib.Analysis.Matrix.Spectrum
import Mathlib.Data.Fin.Tuple.Sort

/-! # C43, C44, C51: the dynamical matrix -/

set_option autoImplicit false
set_option linter.unusedSectionVars false

namespace Euphonic.DynMat

open Euphonic.Lattice Euphonic.Supercell Euphonic.Phases Euphonic.Images

variable {N n : Nat}

/-! ## Phases -/

theorem cellPhase_eq (q : V3 ℝ) (cells : Fin N → V3 ℤ) (c : Fin N) :
    cellPhase q cells c = expQR q (cells c) := by
  unfold cellPhase
  rw [C42_phases, List.getD_eq_getElem _ _ (by simp)]
  simp

/-- Negation, and sum of q-points with a reciprocal lattice vector. -/
def neg {K : Type} [Neg K] (v : V3 K) : V3 K := ⟨-v.x, -v.y, -v.z⟩

theorem expQR_periodic (q : V3 ℝ) (G R : V3 ℤ) : expQR (add q (castV ℝ G)) R = expQR q R := by
  unfold expQR
  rw [Complex.exp_eq_exp_iff_exists_int]
  refine ⟨G.x * R.x + G.y * R.y + G.z * R.z, ?_⟩
  simp only [add, castV]
  push_cast
  ring

theorem expQR_neg (q : V3 ℝ) (R : V3 ℤ) : expQR (neg q) R = star (expQR q R) := by
  unfold expQR
  rw [Complex.star_def, ← Complex.exp_conj]
  congr 1
  simp only [neg, map_mul, Complex.conj_I, Complex.conj_ofReal]
  push_cast
  rw [map_ofNat]
  ring

theorem expQR_neg' (q : V3 ℝ) (R : V3 ℤ) : expQR q (neg R) = star (expQR q R) := by
  rw [← expQR_neg]
  unfold expQR
  congr 1
  simp only [neg]
  push_cast
  ring

theorem expQR_add (q : V3 ℝ) (R T : V3 ℤ) : expQR q (add R T) = expQR q R * expQR q T := by
  unfold expQR
  rw [← Complex.exp_add]
  congr 1
  simp only [add]
  push_cast
  ring

theorem expQR_zero (q : V3 ℝ) : expQR q ⟨0, 0, 0⟩ = 1 := by
  unfold expQR
  simp

/-! ## C44 -/

/-- **C44.** The dynamical matrix and its gradient at `q + G` equal those at `q`, for every integer
vector `G` and any force constants, images and origins. -/
theorem C44_periodic (cv : M3 ℝ) (fcw : Fin N → Mat n ℝ) (cells : Fin N → V3 ℤ) (scOs : List (V3 ℤ))
    (img : Fin N → Fin n → Fin n → List ℤ) (q : V3 ℝ) (G : V3 ℤ) :
    dynMat fcw cells scOs img (add q (castV ℝ G)) = dynMat fcw cells scOs img q
    ∧ dynGrad cv fcw cells scOs img (add q (castV ℝ G)) = dynGrad cv fcw cells scOs img q := by
  have h1 : phasesOf (add q (castV ℝ G)) scOs = phasesOf q scOs := by
    rw [C42_phases, C42_phases]
    exact List.map_congr_left fun R _ => expQR_periodic q G R
  have h2 : ∀ c, cellPhase (add q (castV ℝ G)) cells c = cellPhase q cells c := by
    intro c
    rw [cellPhase_eq, cellPhase_eq, expQR_periodic]
  constructor
  · unfold dynMat
    simp only [h1, h2]
  · unfold dynGrad
    simp only [h1, h2]

theorem phaseAt_neg (q : V3 ℝ) (scOs : List (V3 ℤ)) (k : ℤ) :
    phaseAt (phasesOf (neg q) scOs ++ [0]) k = star (phaseAt (phasesOf q scOs ++ [0]) k) := by
  have h : phasesOf (neg q) scOs ++ [0] = (phasesOf q scOs ++ [0]).map star := by
    rw [C42_phases, C42_phases, List.map_append, List.map_map]
    simp only [List.map_cons, List.map_nil, star_zero]
    congr 1
    exact List.map_congr_left fun R _ => expQR_neg q R
  have hd : ∀ (l : List ℂ) (m : Nat), (l.map star).getD m 0 = star (l.getD m 0) := by
    intro l m
    by_cases hm : m < l.length
    · rw [List.getD_eq_getElem _ _ (by simpa using hm), List.getD_eq_getElem _ _ hm, List.getElem_map]
    · rw [List.getD_eq_default _ _ (by simpa using hm), List.getD_eq_default _ _ (by simpa using hm),
        star_zero]
  rw [h]
  unfold phaseAt
  rw [hd, hd, List.length_map]
  split <;> rfl

theorem star_list_sum {ι : Type} (l : List ι) (f : ι → ℂ) : star (l.map f).sum = (l.map fun a => star (f a)).sum := by
  induction l with
  | nil => simp
  | cons a l ih => simp only [List.map_cons, List.sum_cons, star_add, ih]

/-- **C44.** The dynamical matrix at `-q` is the complex conjugate of that at `q`, its gradient is minus
the complex conjugate. -/
theorem C44_even (cv : M3 ℝ) (fcw : Fin N → Mat n ℝ) (cells : Fin N → V3 ℤ) (scOs : List (V3 ℤ))
    (img : Fin N → Fin n → Fin n → List ℤ) (q : V3 ℝ) (k l : Fin (n * 3)) :
    dynMat fcw cells scOs img (neg q) k l = star (dynMat fcw cells scOs img q k l)
    ∧ ∀ d, dynGrad cv fcw cells scOs img (neg q) d k l
        = -star (dynGrad cv fcw cells scOs img q d k l) := by
  have hc : ∀ x : ℝ, star (x : ℂ) = x := fun x => Complex.conj_ofReal x
  have h2 : ∀ c, cellPhase (neg q) cells c = star (cellPhase q cells c) := by
    intro c
    rw [cellPhase_eq, cellPhase_eq, expQR_neg]
  constructor
  · unfold dynMat phaseSum
    simp only [h2, phaseAt_neg, star_sum, star_mul', hc, star_list_sum]
  · intro d
    unfold dynGrad
    simp only [h2, phaseAt_neg, star_sum, star_mul', hc, star_list_sum]
    rw [← Finset.sum_neg_distrib]
    apply Finset.sum_congr rfl
    intro c _
    have : star Complex.I = -Complex.I := Complex.conj_I
    rw [this]
    ring

/-! ## The dynamical matrix as a sum over nearest images -/

section Herm
variable (cv : M3 ℝ) (r : Fin n → V3 ℝ) (cells : Fin N → V3 ℤ) (c0 : Fin N) (S : M3 ℤ)

open Classical in
/-- Specification: the candidate images in the Wigner-Seitz cell of the pair. -/
noncomputable def imageSet (images : List (V3 ℤ)) (c : Fin N) (i j : Fin n) : Finset (V3 ℤ) :=
  images.toFinset.filter fun l =>
    Nearest (scVecs S cv) (pairVec cv S (cells c0) (cells c) (r i) (r j) l)

/-- Specification: a lattice sum in which every force constant is shared equally between its nearest
images; `F` is the function of the lattice vector that is summed. -/
noncomputable def latticeSum (images : List (V3 ℤ)) (fc : Fin N → Mat n ℝ) (F : V3 ℤ → ℂ) : Mat n ℂ :=
  fun k l => ∑ c, (fc c k l : ℂ) / ((imageSet cv r cells c0 S images c k.divNat l.divNat).card : ℂ) *
    ∑ m ∈ imageSet cv r cells c0 S images c k.divNat l.divNat, F (add (cells c) (mulMat m S))

theorem good_map {β : Type} [AddCommMonoid β] (images : List (V3 ℤ)) (hnd : images.Nodup) (c : Fin N)
    (i j : Fin n) (f : V3 ℤ → β) :
    ((goodImages cv S r cells c0 images c i j).map fun m => f (images.getD m ⟨0, 0, 0⟩)).sum
      = ∑ m ∈ imageSet cv r cells c0 S images c i j, f m := by
  classical
  have h : (goodImages cv S r cells c0 images c i j).map (fun m => images.getD m ⟨0, 0, 0⟩)
      = images.filter fun l => decide
        (Nearest (scVecs S cv) (pairVec cv S (cells c0) (cells c) (r i) (r j) l)) := by
    unfold goodImages
    rw [List.map_map]
    have h1 : ∀ p ∈ images.zipIdx, images.getD p.2 ⟨0, 0, 0⟩ = p.1 := by
      intro p hp
      have := List.mem_zipIdx_iff_getElem?.1 hp
      rw [List.getD_eq_getElem?_getD, this, Option.getD_some]
    rw [List.map_congr_left (f := (fun m => images.getD m ⟨0, 0, 0⟩) ∘ fun x : V3 ℤ × ℕ => x.2)
      (g := fun p : V3 ℤ × ℕ => p.1) (fun p hp => h1 p (List.mem_of_mem_filter hp))]
    have h2 : images = images.zipIdx.map (·.1) := by rw [List.zipIdx_map_fst]
    conv_rhs => rw [h2]
    rw [List.filter_map]
    congr 1
  have h' := congrArg (List.map f) h
  rw [List.map_map] at h'
  have e : (fun m => f (images.getD m ⟨0, 0, 0⟩)) = f ∘ fun m => images.getD m ⟨0, 0, 0⟩ := rfl
  rw [e, h', ← List.sum_toFinset _ (hnd.filter _)]
  congr 1
  unfold imageSet
  ext l
  simp

theorem good_length (images : List (V3 ℤ)) (hnd : images.Nodup) (c : Fin N) (i j : Fin n) :
    (goodImages cv S r cells c0 images c i j).length = (imageSet cv r cells c0 S images c i j).card := by
  have := good_map cv r cells c0 S images hnd c i j (fun _ => (1 : ℕ))
  simpa using this

theorem scImageI_eq (images : List (V3 ℤ)) (hv : cellVolume (scVecs S cv) ≠ 0) (c : Fin N) (i j : Fin n) :
    ∃ pad, scImageI (imageLoops cv r cells c0 S images) c i j
      = (goodImages cv S r cells c0 images c i j).map (fun (m : Nat) => (m : ℤ))
        ++ List.replicate pad (-1) := by
  obtain ⟨h1, h2⟩ := imageLoops_rep cv r cells c0 S images hv c i j
  refine ⟨maxCount (imageLoops cv r cells c0 S images)
            - (goodImages cv S r cells c0 images c i j).length, ?_⟩
  have hle := length_le_max (imageLoops cv r cells c0 S images) c i j
  rw [h1] at hle
  apply List.ext_getElem
  · simp [scImageI]; omega
  · intro m hm1 hm2
    have e : (scImageI (imageLoops cv r cells c0 S images) c i j)[m]
        = (imageLoops cv r cells c0 S images).img c i j m := by
      simp only [scImageI, List.getElem_map, List.getElem_range]
    rw [e, h2 m]
    by_cases hlt : m < (goodImages cv S r cells c0 images c i j).length
    · rw [List.getD_eq_getElem _ _ (by simpa using hlt), List.getElem_append_left]
    · rw [List.getD_eq_default _ _ (by simp; omega), List.getElem_append_right (by simp; omega),
        List.getElem_replicate]

/-- Any weighted sum over the image array that vanishes on the padding is a lattice sum. -/
theorem weighted_sum_eq (images : List (V3 ℤ)) (hnd : images.Nodup) (hv : cellVolume (scVecs S cv) ≠ 0)
    (fc junk : Fin N → Mat n ℝ) (F : V3 ℤ → ℂ) (g : Fin N → ℤ → ℂ) (hpad : ∀ c, g c (-1) = 0)
    (hg : ∀ c m (hm : m < images.length), g c m = F (add (cells c) (mulMat images[m] S)))
    (k l : Fin (n * 3)) :
    (∑ c, (fcImgWeighted fc junk (imageLoops cv r cells c0 S images).cnt c k l : ℂ) *
      ((scImageI (imageLoops cv r cells c0 S images) c k.divNat l.divNat).map (g c)).sum)
      = latticeSum cv r cells c0 S images fc F k l := by
  unfold latticeSum
  apply Finset.sum_congr rfl
  intro c _
  obtain ⟨h1, -⟩ := imageLoops_rep cv r cells c0 S images hv c k.divNat l.divNat
  obtain ⟨pad, hlist⟩ := scImageI_eq cv r cells c0 S images hv c k.divNat l.divNat
  have hlt : ∀ m ∈ goodImages cv S r cells c0 images c k.divNat l.divNat, m < images.length := by
    intro m hm
    unfold goodImages at hm
    obtain ⟨p, hp, rfl⟩ := List.mem_map.1 hm
    have := List.mem_zipIdx_iff_getElem?.1 (List.mem_of_mem_filter hp)
    exact (List.getElem?_eq_some_iff.1 this).1
  have hsum : ((scImageI (imageLoops cv r cells c0 S images) c k.divNat l.divNat).map (g c)).sum
      = ∑ m ∈ imageSet cv r cells c0 S images c k.divNat l.divNat, F (add (cells c) (mulMat m S)) := by
    rw [hlist, List.map_append, List.sum_append, List.map_replicate, List.sum_replicate, hpad,
      smul_zero, add_zero, ← good_map cv r cells c0 S images hnd c k.divNat l.divNat
        (fun m => F (add (cells c) (mulMat m S))), List.map_map]
    congr 1
    apply List.map_congr_left
    intro m hm
    rw [Function.comp, hg c m (hlt m hm), List.getD_eq_getElem _ _ (hlt m hm)]
  rw [hsum, Finset.mul_sum, Finset.mul_sum]
  apply Finset.sum_congr rfl
  intro m hm
  have hcard : (imageSet cv r cells c0 S images c k.divNat l.divNat).card ≠ 0 :=
    Finset.card_ne_zero_of_mem hm
  congr 1
  unfold fcImgWeighted fcWeighted
  rw [h1, good_length cv r cells c0 S images hnd, if_pos hcard]
  push_cast
  rfl

theorem phaseAt_nat (q : V3 ℝ) (images : List (V3 ℤ)) (m : Nat) (hm : m < images.length) :
    phaseAt (phasesOf q (scOrigins S images) ++ [0]) m = expQR q (mulMat images[m] S) := by
  unfold phaseAt
  rw [if_pos (Int.natCast_nonneg m), Int.toNat_natCast, C42_phases, scOrigins,
    List.getD_eq_getElem _ _ (by simp; omega), List.getElem_append_left (by simpa using hm),
    List.getElem_map, List.getElem_map]

theorem phaseAt_pad (l : List ℂ) : phaseAt (l ++ [0]) (-1) = 0 := by
  unfold phaseAt
  simp

/-- **C43.** What the code computes is the textbook dynamical matrix: the phases `exp(2 pi i q.R)` of
all nearest images with equal weights; the uninitialised memory does not matter. -/
theorem C43_textbook (images : List (V3 ℤ)) (hnd : images.Nodup) (hv : cellVolume (scVecs S cv) ≠ 0)
    (fc junk : Fin N → Mat n ℝ) (q : V3 ℝ) :
    fcDynMat cv r cells c0 S images fc junk q = latticeSum cv r cells c0 S images fc (expQR q) := by
  funext k l
  rw [← weighted_sum_eq cv r cells c0 S images hnd hv fc junk (expQR q)
    (fun c m => cellPhase q cells c * phaseAt (phasesOf q (scOrigins S images) ++ [0]) m)
    (fun c => by rw [phaseAt_pad, mul_zero])
    (fun c m hm => by rw [cellPhase_eq, phaseAt_nat S q images m hm, expQR_add])]
  unfold fcDynMat dynMat phaseSum
  apply Finset.sum_congr rfl
  intro c _
  rw [List.sum_map_mul_left]

/-- **C43.** The gradient of the dynamical matrix is the lattice sum of `i R exp(2 pi i q.R)`, with `R`
in Cartesian coordinates. -/
theorem C43_textbook_gradient (images : List (V3 ℤ)) (hnd : images.Nodup)
    (hv : cellVolume (scVecs S cv) ≠ 0) (fc junk : Fin N → Mat n ℝ) (q : V3 ℝ) (d : Fin 3) :
    dynGrad cv (fcImgWeighted fc junk (imageLoops cv r cells c0 S images).cnt) cells
      (scOrigins S images) (scImageI (imageLoops cv r cells c0 S images)) q d
      = latticeSum cv r cells c0 S images fc
        fun R => Complex.I * ((comp (toCart cv (castV ℝ R)) d : ℝ) : ℂ) * expQR q R := by
  funext k l
  have hcart : ∀ m (hm : m < images.length),
      scOriginCart cv (scOrigins S images) (m : ℤ) = toCart cv (castV ℝ (mulMat images[m] S)) := by
    intro m hm
    unfold scOriginCart
    dsimp only
    rw [if_pos (Int.natCast_nonneg m), Int.toNat_natCast, scOrigins,
      List.getD_eq_getElem _ _ (by simp; omega), List.getElem_append_left (by simpa using hm),
      List.getElem_map, List.getElem_map]
  have hadd : ∀ u v : V3 ℤ, add (toCart cv (castV ℝ u)) (toCart cv (castV ℝ v))
      = toCart cv (castV ℝ (add v u)) := by
    intro u v
    simp only [add, toCart, castV, V3.mk.injEq]
    push_cast
    refine ⟨?_, ?_, ?_⟩ <;> ring
  rw [← weighted_sum_eq cv r cells c0 S images hnd hv fc junk _
    (fun c m => Complex.I * (phaseAt (phasesOf q (scOrigins S images) ++ [0]) m * cellPhase q cells c *
      ((comp (add (scOriginCart cv (scOrigins S images) m) (toCart cv (castV ℝ (cells c)))) d : ℝ) : ℂ)))
    (fun c => by rw [phaseAt_pad]; ring)
    (fun c m hm => by
      rw [cellPhase_eq, phaseAt_nat S q images m hm, hcart m hm, hadd, expQR_add]
      ring)]
  unfold dynGrad
  apply Finset.sum_congr rfl
  intro c _
  rw [List.sum_map_mul_left]

/-! ## C43 -/

/-- Specification of the symmetry of force constants: for each cell `c` there is a cell `op c` whose
origin is `-R_c` up to the supercell vector `t c`, and exchanging the two atoms while reversing the cell
vector leaves the force constants unchanged. -/
structure Symmetric (fc : Fin N → Mat n ℝ) (op : Fin N → Fin N) (t : Fin N → V3 ℤ) : Prop where
  invol : ∀ c, op (op c) = c
  origin : ∀ c, add (cells (op c)) (cells c) = neg (mulMat (t c) S)
  exchange : ∀ c k l, fc (op c) l k = fc c k l

theorem nearest_neg (sv : M3 ℝ) (v : V3 ℝ) (h : Nearest sv v) : Nearest sv (neg v) := by
  intro a b c ha hb hc h0
  have := h (-a) (-b) (-c) (by rwa [abs_neg]) (by rwa [abs_neg]) (by rwa [abs_neg]) (by
    intro hh
    apply h0
    simp only [Prod.mk.injEq, neg_eq_zero] at hh ⊢
    exact hh)
  simp only [Images.sq, dot, sub, neg, toCart] at this ⊢
  push_cast at this
  linarith

theorem V3.ext' {K : Type} {u v : V3 K} (hx : u.x = v.x) (hy : u.y = v.y) (hz : u.z = v.z) : u = v := by
  cases u; cases v; simp_all

theorem pairVec_op {fc : Fin N → Mat n ℝ} {op : Fin N → Fin N} {t : Fin N → V3 ℤ}
    (hs : Symmetric cells S fc op t) (h0 : cells c0 = ⟨0, 0, 0⟩) (c : Fin N) (i j : Fin n) (l : V3 ℤ) :
    pairVec cv S (cells c0) (cells (op c)) (r j) (r i) (sub (t c) l)
      = neg (pairVec cv S (cells c0) (cells c) (r i) (r j) l) := by
  have ho := hs.origin c
  simp only [add, neg, mulMat, V3.mk.injEq] at ho
  obtain ⟨hx, hy, hz⟩ := ho
  have hx' : ((cells (op c)).x : ℝ) = -((t c).x * S.a.x + (t c).y * S.b.x + (t c).z * S.c.x) - (cells c).x := by
    have : (cells (op c)).x = -((t c).x * S.a.x + (t c).y * S.b.x + (t c).z * S.c.x) - (cells c).x := by linarith
    rw [this]; push_cast; ring
  have hy' : ((cells (op c)).y : ℝ) = -((t c).x * S.a.y + (t c).y * S.b.y + (t c).z * S.c.y) - (cells c).y := by
    have : (cells (op c)).y = -((t c).x * S.a.y + (t c).y * S.b.y + (t c).z * S.c.y) - (cells c).y := by linarith
    rw [this]; push_cast; ring
  have hz' : ((cells (op c)).z : ℝ) = -((t c).x * S.a.z + (t c).y * S.b.z + (t c).z * S.c.z) - (cells c).z := by
    have : (cells (op c)).z = -((t c).x * S.a.z + (t c).y * S.b.z + (t c).z * S.c.z) - (cells c).z := by linarith
    rw [this]; push_cast; ring
  rw [h0]
  apply V3.ext' <;> simp only [pairVec, toCart, sub, add, castV, neg, mulMat, hx', hy', hz'] <;>
    push_cast <;> ring

/-- The candidate images contain every nearest image. -/
def Complete (images : List (V3 ℤ)) : Prop :=
  ∀ (c : Fin N) (i j : Fin n) (l : V3 ℤ),
    Nearest (scVecs S cv) (pairVec cv S (cells c0) (cells c) (r i) (r j) l) → l ∈ images

theorem imageSet_op {fc : Fin N → Mat n ℝ} {op : Fin N → Fin N} {t : Fin N → V3 ℤ}
    (hs : Symmetric cells S fc op t) (h0 : cells c0 = ⟨0, 0, 0⟩) (images : List (V3 ℤ))
    (hc : Complete cv r cells c0 S images) (c : Fin N) (i j : Fin n) (l : V3 ℤ)
    (hl : l ∈ imageSet cv r cells c0 S images c i j) :
    sub (t c) l ∈ imageSet cv r cells c0 S images (op c) j i := by
  classical
  unfold imageSet at hl ⊢
  simp only [Finset.mem_filter] at hl ⊢
  have : Nearest (scVecs S cv)
      (pairVec cv S (cells c0) (cells (op c)) (r j) (r i) (sub (t c) l)) := by
    rw [pairVec_op cv r cells c0 S hs h0]
    exact nearest_neg _ _ hl.2
  exact ⟨List.mem_toFinset.2 (hc _ _ _ _ this), this⟩

/-- **C43.** For force constants with the exchange symmetry, first cell at the origin and a search
range containing all nearest images, every lattice sum of a function with `F(-R) = conj F(R)` is
Hermitian. -/
theorem latticeSum_hermitian {fc : Fin N → Mat n ℝ} {op : Fin N → Fin N} {t : Fin N → V3 ℤ}
    (hs : Symmetric cells S fc op t) (h0 : cells c0 = ⟨0, 0, 0⟩) (images : List (V3 ℤ))
    (hc : Complete cv r cells c0 S images) (F : V3 ℤ → ℂ) (hF : ∀ R, F (neg R) = star (F R))
    (k l : Fin (n * 3)) :
    latticeSum cv r cells c0 S images fc F l k = star (latticeSum cv r cells c0 S images fc F k l) := by
  have hsub : ∀ u v : V3 ℤ, mulMat (sub u v) S = sub (mulMat u S) (mulMat v S) := by
    intro u v
    simp only [mulMat, sub, V3.mk.injEq]
    refine ⟨?_, ?_, ?_⟩ <;> ring
  have hinj : ∀ (u v w : V3 ℤ), sub u v = sub u w → v = w := by
    intro u v w h
    simp only [sub, V3.mk.injEq] at h
    apply V3.ext' <;> omega
  have hle : ∀ c i j, (imageSet cv r cells c0 S images c i j).card
      ≤ (imageSet cv r cells c0 S images (op c) j i).card := by
    intro c i j
    refine Finset.card_le_card_of_injOn (fun m => sub (t c) m)
      (fun m hm => imageSet_op cv r cells c0 S hs h0 images hc c i j m hm) ?_
    intro a _ b _ h
    exact hinj _ _ _ h
  have hcard : ∀ c i j, (imageSet cv r cells c0 S images (op c) j i).card
      = (imageSet cv r cells c0 S images c i j).card := by
    intro c i j
    apply le_antisymm _ (hle c i j)
    have := hle (op c) j i
    rwa [hs.invol] at this
  have hF2 : ∀ (c : Fin N) (m : V3 ℤ),
      F (add (cells (op c)) (mulMat (sub (t c) m) S)) = star (F (add (cells c) (mulMat m S))) := by
    intro c m
    rw [← hF]
    congr 1
    have ho := hs.origin c
    rw [hsub]
    simp only [add, neg, sub, V3.mk.injEq] at ho ⊢
    omega
  unfold latticeSum
  rw [star_sum]
  refine Finset.sum_bij' (fun c _ => op c) (fun c _ => op c) (fun _ _ => Finset.mem_univ _)
    (fun _ _ => Finset.mem_univ _) (fun c _ => hs.invol c) (fun c _ => hs.invol c) ?_
  intro c _
  rw [star_mul', star_div₀, star_sum]
  have hr : ∀ x : ℝ, star (x : ℂ) = x := fun x => Complex.conj_ofReal x
  have hn : ∀ x : ℕ, star (x : ℂ) = x := fun x => by
    have := hr (x : ℝ); simpa using this
  rw [hr, hn, hcard c l.divNat k.divNat, hs.exchange c l k]
  congr 1
  refine Finset.sum_bij (fun m _ => sub (t c) m)
    (fun m hm => imageSet_op cv r cells c0 S hs h0 images hc c _ _ m hm) ?_ ?_ ?_
  · intro a _ b _ h
    exact hinj _ _ _ h
  · intro m hm
    obtain ⟨a, ha, hb⟩ := Finset.surj_on_of_inj_on_of_card_le (fun m _ => sub (t c) m)
      (fun m hm => imageSet_op cv r cells c0 S hs h0 images hc c l.divNat k.divNat m hm)
      (fun a b _ _ h => hinj _ _ _ h) (hcard c _ _).le m hm
    exact ⟨a, ha, hb.symm⟩
  · intro m _
    rw [hF2, star_star]

/-- **C43.** For force constants with the exchange symmetry, first cell at the origin and a search
range containing all nearest images, the dynamical matrix at every `q` is Hermitian, and so is its
gradient in each direction. -/
theorem C43_hermitian {fc : Fin N → Mat n ℝ} {op : Fin N → Fin N} {t : Fin N → V3 ℤ}
    (hs : Symmetric cells S fc op t) (h0 : cells c0 = ⟨0, 0, 0⟩) (images : List (V3 ℤ))
    (hnd : images.Nodup) (hc : Complete cv r cells c0 S images) (hv : cellVolume (scVecs S cv) ≠ 0)
    (junk : Fin N → Mat n ℝ) (q : V3 ℝ) (k l : Fin (n * 3)) :
    fcDynMat cv r cells c0 S images fc junk q l k = star (fcDynMat cv r cells c0 S images fc junk q k l)
    ∧ ∀ d, dynGrad cv (fcImgWeighted fc junk (imageLoops cv r cells c0 S images).cnt) cells
        (scOrigins S images) (scImageI (imageLoops cv r cells c0 S images)) q d l k
      = star (dynGrad cv (fcImgWeighted fc junk (imageLoops cv r cells c0 S images).cnt) cells
        (scOrigins S images) (scImageI (imageLoops cv r cells c0 S images)) q d k l) := by
  constructor
  · rw [C43_textbook cv r cells c0 S images hnd hv]
    exact latticeSum_hermitian cv r cells c0 S hs h0 images hc _ (expQR_neg' q) k l
  · intro d
    rw [C43_textbook_gradient cv r cells c0 S images hnd hv]
    apply latticeSum_hermitian cv r cells c0 S hs h0 images hc
    intro R
    rw [expQR_neg', star_mul', star_mul']
    have hI : star Complex.I = -Complex.I := Complex.conj_I
    have hr : ∀ x : ℝ, star (x : ℂ) = x := fun x => Complex.conj_ofReal x
    rw [hI, hr]
    have : comp (toCart cv (castV ℝ (neg R))) d = -comp (toCart cv (castV ℝ R)) d := by
      fin_cases d <;> simp [comp, toCart, castV, neg] <;> ring
    rw [this]
    push_cast
    ring

end Herm

/-! ### A case meeting the hypotheses of C43 -/

namespace Ex

/-- Unit cube. -/
noncomputable def cv : M3 ℝ := ⟨⟨1, 0, 0⟩, ⟨0, 1, 0⟩, ⟨0, 0, 1⟩⟩
/-- Supercell 2x1x1. -/
def S : M3 ℤ := ⟨⟨2, 0, 0⟩, ⟨0, 1, 0⟩, ⟨0, 0, 1⟩⟩
/-- Its two cells. -/
def cells : Fin 2 → V3 ℤ := ![⟨0, 0, 0⟩, ⟨1, 0, 0⟩]
/-- One atom at a general position. -/
noncomputable def r : Fin 1 → V3 ℝ := fun _ => ⟨1 / 5, 1 / 3, 0⟩
/-- Symmetric blocks with off-diagonal elements. -/
noncomputable def fc : Fin 2 → Mat 1 ℝ := fun c k l =>
  if k = l then ![4, -3] c else if k.val + l.val = 1 then ![1, 2] c else 0

theorem symmetric : Symmetric cells S fc id ![⟨0, 0, 0⟩, ⟨-1, 0, 0⟩] where
  invol := fun _ => rfl
  origin := by decide
  exchange := by
    intro c k l
    simp only [fc, id]
    by_cases h : k = l
    · rw [if_pos h, if_pos h.symm]
    · rw [if_neg h, if_neg (Ne.symm h), Nat.add_comm]

theorem volume : cellVolume (scVecs S cv) ≠ 0 := by
  simp [cellVolume, scVecs, S, cv, toCart, castV, dot, cross]

theorem complete (images : List (V3 ℤ)) (h : ∀ v : V3 ℤ, |v.x| ≤ 2 → |v.y| ≤ 2 → |v.z| ≤ 2 → v ∈ images) :
    Complete cv r cells 0 S images := by
  intro c i j l hn
  have h1 := hn 1 0 0 (by decide) (by decide) (by decide) (by decide)
  have h2 := hn (-1) 0 0 (by decide) (by decide) (by decide) (by decide)
  have h3 := hn 0 1 0 (by decide) (by decide) (by decide) (by decide)
  have h4 := hn 0 (-1) 0 (by decide) (by decide) (by decide) (by decide)
  have h5 := hn 0 0 1 (by decide) (by decide) (by decide) (by decide)
  have h6 := hn 0 0 (-1) (by decide) (by decide) (by decide) (by decide)
  obtain ⟨lx, ly, lz⟩ := l
  have key : -2 < lx ∧ lx < 2 ∧ -1 < ly ∧ ly < 1 ∧ -1 < lz ∧ lz < 1 := by
    fin_cases c <;>
    · simp [Images.sq, dot, sub, pairVec, toCart, scVecs, S, cv, castV, add, cells, r, mulMat]
        at h1 h2 h3 h4 h5 h6
      refine ⟨?_, ?_, ?_, ?_, ?_, ?_⟩ <;>
      · have : ∀ a b : ℤ, (a : ℝ) < b → a < b := fun a b => by exact_mod_cast id
        apply this
        push_cast
        linarith
  apply h <;> rw [abs_le] <;> dsimp only <;> omega

/-- The hypotheses of `C43_hermitian` hold for the image list that the code searches (two shells). -/
example : ∃ images, imageShells 2 = .ok images ∧ images.Nodup ∧ Complete cv r cells 0 S images := by
  obtain ⟨ims, h1, h2, h3, -⟩ := C42_image_origins 2 S
  exact ⟨ims, h1, h2, complete ims fun v hx hy hz => (h3 v).2
    ⟨by exact_mod_cast hx, by exact_mod_cast hy, by exact_mod_cast hz⟩⟩

end Ex

/-! ## Frequencies -/

open scoped Matrix in
/-- What is assumed about the external eigensolver `np.linalg.eigh`: for a Hermitian matrix it returns
the eigenvalues in increasing order and an orthonormal set of eigenvectors (`evecs s` for mode `s`). -/
structure IsEigh {m : Nat} (eigh : (Fin m → Fin m → ℂ) → (Fin m → ℝ) × (Fin m → Fin m → ℂ)) : Prop where
  mono : ∀ A, (∀ k l, A l k = star (A k l)) → Monotone (eigh A).1
  ortho : ∀ A, (∀ k l, A l k = star (A k l)) → ∀ s s',
    ∑ k, star ((eigh A).2 s k) * (eigh A).2 s' k = if s = s' then 1 else 0
  eigen : ∀ A, (∀ k l, A l k = star (A k l)) → ∀ s k,
    ∑ l, A k l * (eigh A).2 s l = (eigh A).1 s * (eigh A).2 s k

/-- The specification determines the characteristic polynomial. -/
theorem IsEigh.charpoly {m : Nat} {eigh : (Fin m → Fin m → ℂ) → (Fin m → ℝ) × (Fin m → Fin m → ℂ)}
    (he : IsEigh eigh) (A : Fin m → Fin m → ℂ) (hA : ∀ k l, A l k = star (A k l)) :
    (Matrix.of A).charpoly = ∏ s, (Polynomial.X - Polynomial.C ((eigh A).1 s : ℂ)) := by
  set U : Matrix (Fin m) (Fin m) ℂ := Matrix.of fun k s => (eigh A).2 s k with hU
  set D : Matrix (Fin m) (Fin m) ℂ := Matrix.diagonal fun s => ((eigh A).1 s : ℂ) with hD
  have h1 : U.conjTranspose * U = 1 := by
    ext s s'
    rw [Matrix.mul_apply, Matrix.one_apply]
    exact he.ortho A hA s s'
  have h2 : Matrix.of A * U = U * D := by
    ext k s
    rw [Matrix.mul_apply, hD, Matrix.mul_diagonal]
    simp only [hU, Matrix.of_apply]
    rw [he.eigen A hA s k, mul_comm]
  have h3 : U * U.conjTranspose = 1 := mul_eq_one_comm.1 h1
  have h4 : Matrix.of A = U * (D * U.conjTranspose) := by
    rw [← Matrix.mul_assoc, ← h2, Matrix.mul_assoc, h3, Matrix.mul_one]
  rw [h4, Matrix.charpoly_mul_comm, Matrix.mul_assoc, h1, Matrix.mul_one, hD,
    Matrix.charpoly_diagonal]

/-- Two Hermitian matrices with the same characteristic polynomial get the same eigenvalues. -/
theorem IsEigh.evals_eq {m : Nat} {eigh : (Fin m → Fin m → ℂ) → (Fin m → ℝ) × (Fin m → Fin m → ℂ)}
    (he : IsEigh eigh) (A B : Fin m → Fin m → ℂ) (hA : ∀ k l, A l k = star (A k l))
    (hB : ∀ k l, B l k = star (B k l)) (h : (Matrix.of A).charpoly = (Matrix.of B).charpoly) :
    (eigh A).1 = (eigh B).1 := by
  rw [he.charpoly A hA, he.charpoly B hB] at h
  have hr := congrArg Polynomial.roots h
  rw [Polynomial.roots_prod _ _ (by simp [Finset.prod_ne_zero_iff, Polynomial.X_sub_C_ne_zero]),
    Polynomial.roots_prod _ _ (by simp [Finset.prod_ne_zero_iff, Polynomial.X_sub_C_ne_zero])] at hr
  simp only [Polynomial.roots_X_sub_C, Multiset.bind_singleton] at hr
  have hr' := congrArg (Multiset.map Complex.re) hr
  rw [Multiset.map_map, Multiset.map_map] at hr'
  simp only [Function.comp_def, Complex.ofReal_re, Fin.univ_val_map] at hr'
  have hperm := Multiset.coe_eq_coe.1 hr'
  have := List.Perm.eq_of_sortedLE (he.mono A hA).sortedLE_ofFn (he.mono B hB).sortedLE_ofFn hperm
  exact List.ofFn_injective this

open Classical in
/-- The specification can be met (spectral theorem), so theorems assuming it are not vacuous. -/
theorem exists_isEigh (m : Nat) :
    ∃ eigh : (Fin m → Fin m → ℂ) → (Fin m → ℝ) × (Fin m → Fin m → ℂ), IsEigh eigh := by
  have key : ∀ A : Fin m → Fin m → ℂ, ∃ p : (Fin m → ℝ) × (Fin m → Fin m → ℂ),
      (∀ k l, A l k = star (A k l)) → Monotone p.1 ∧
      (∀ s s', ∑ k, star (p.2 s k) * p.2 s' k = if s = s' then 1 else 0) ∧
      ∀ s k, ∑ l, A k l * p.2 s l = p.1 s * p.2 s k := by
    intro A
    by_cases h : ∀ k l, A l k = star (A k l)
    · have hA : (Matrix.of A).IsHermitian := by
        ext k l
        rw [Matrix.conjTranspose_apply]
        exact (h l k).symm
      refine ⟨(fun s => hA.eigenvalues (Tuple.sort hA.eigenvalues s),
        fun s k => hA.eigenvectorBasis (Tuple.sort hA.eigenvalues s) k), fun _ => ⟨?_, ?_, ?_⟩⟩
      · exact Tuple.monotone_sort hA.eigenvalues
      · intro s s'
        have := orthonormal_iff_ite.1 hA.eigenvectorBasis.orthonormal (Tuple.sort hA.eigenvalues s)
          (Tuple.sort hA.eigenvalues s')
        rw [PiLp.inner_apply] at this
        simp only [EmbeddingLike.apply_eq_iff_eq] at this
        rw [← this]
        apply Finset.sum_congr rfl
        intro k _
        rw [RCLike.inner_apply, mul_comm]
        rfl
      · intro s k
        have := congrFun (hA.mulVec_eigenvectorBasis (Tuple.sort hA.eigenvalues s)) k
        rw [Matrix.mulVec, dotProduct] at this
        simpa using this
    · exact ⟨(fun _ => 0, fun _ _ => 0), fun h' => absurd h' h⟩
  choose f hf using key
  exact ⟨f, ⟨fun A hA => (hf A hA).1, fun A hA => (hf A hA).2.1, fun A hA => (hf A hA).2.2⟩⟩

/-- **C44.** Frequencies are even and periodic: for any eigensolver meeting its specification and any
masses, the frequencies computed from a Hermitian dynamical matrix at `q + G` and at `-q` equal those at
`q`. -/
theorem C44_frequencies (fcw : Fin N → Mat n ℝ) (cells : Fin N → V3 ℤ) (scOs : List (V3 ℤ))
    (img : Fin N → Fin n → Fin n → List ℤ) (m : Fin n → ℝ) (q : V3 ℝ) (G : V3 ℤ)
    (eigh : Mat n ℂ → (Fin (n * 3) → ℝ) × Mat n ℂ) (he : IsEigh eigh)
    (hq : ∀ k l, dynMat fcw cells scOs img q l k = star (dynMat fcw cells scOs img q k l))
    (s : Fin (n * 3)) :
    let f := fun p : V3 ℝ => freqOf
      ((eigh (weighted (massWeighting m) (dynMat fcw cells scOs img p) none none none)).1 s)
    f (add q (castV ℝ G)) = f q ∧ f (neg q) = f q := by
  intro f
  constructor
  · simp only [f, (C44_periodic ⟨⟨0, 0, 0⟩, ⟨0, 0, 0⟩, ⟨0, 0, 0⟩⟩ fcw cells scOs img q G).1]
  · simp only [f]
    have hr : ∀ x : ℝ, star (x : ℂ) = x := fun x => Complex.conj_ofReal x
    have hw : ∀ k l, massWeighting m l k = massWeighting m k l := by
      intro k l
      unfold massWeighting
      rw [mul_comm]
    have hneg : ∀ k l, dynMat fcw cells scOs img (neg q) k l = dynMat fcw cells scOs img q l k := by
      intro k l
      rw [(C44_even ⟨⟨0, 0, 0⟩, ⟨0, 0, 0⟩, ⟨0, 0, 0⟩⟩ fcw cells scOs img q k l).1, hq k l]
    have hA : ∀ k l, weighted (massWeighting m) (dynMat fcw cells scOs img q) none none none l k
        = star (weighted (massWeighting m) (dynMat fcw cells scOs img q) none none none k l) := by
      intro k l
      simp only [weighted, star_mul', hr, hw l k, ← hq k l]
    have hB : weighted (massWeighting m) (dynMat fcw cells scOs img (neg q)) none none none
        = fun k l => weighted (massWeighting m) (dynMat fcw cells scOs img q) none none none l k := by
      funext k l
      simp only [weighted, hneg k l, hw k l]
    rw [hB]
    congr 1
    refine congrFun (he.evals_eq _ _ (fun k l => ?_) hA ?_) s
    · exact hA l k
    · exact Matrix.charpoly_transpose
        (Matrix.of (weighted (massWeighting m) (dynMat fcw cells scOs img q) none none none))

/-! ## C90 -/

/-- A matrix that may be absent. -/
def orZero {n : Nat} (o : Option (Mat n ℂ)) (k l : Fin (n * 3)) : ℂ := match o with | some m => m k l | none => 0

/-- **C90.** Equation of motion: if `e` is an eigenvector of the matrix that is diagonalised, with eigenvalue
`v`, then the displacements `u = e / sqrt m` satisfy `sum_l D_kl u_l = v m_k u_k`, with `D` the dynamical
matrix plus the corrections that are switched on. -/
theorem C90_equation_of_motion {n : Nat} (m : Fin n → ℝ) (hm : ∀ i, 0 < m i) (d : Mat n ℂ)
    (dipole asr loto : Option (Mat n ℂ)) (e : Fin (n * 3) → ℂ) (v : ℂ)
    (h : ∀ k, ∑ l, weighted (massWeighting m) d dipole asr loto k l * e l = v * e k) (k : Fin (n * 3)) :
    ∑ l, (d k l + orZero dipole k l + orZero asr k l + orZero loto k l) * (e l / (√(m l.divNat) : ℝ)) =
      v * (m k.divNat : ℝ) * (e k / (√(m k.divNat) : ℝ)) := by
  have hs : ∀ i, (√(m i) : ℂ) ≠ 0 := fun i => by
    rw [Ne, Complex.ofReal_eq_zero]; exact (Real.sqrt_pos.2 (hm i)).ne'
  have hmm : ((m k.divNat : ℝ) : ℂ) = (√(m k.divNat) : ℝ) * (√(m k.divNat) : ℝ) := by
    rw [← Complex.ofReal_mul, Real.mul_self_sqrt (hm _).le]
  have hw : ∀ l, weighted (massWeighting m) d dipole asr loto k l =
      (d k l + orZero dipole k l + orZero asr k l + orZero loto k l) /
        ((√(m l.divNat) : ℝ) * (√(m k.divNat) : ℝ)) := by
    intro l
    have : ((massWeighting m k l : ℝ) : ℂ) = 1 / ((√(m l.divNat) : ℝ) * (√(m k.divNat) : ℝ)) := by
      unfold massWeighting
      rw [Real.sqrt_mul (hm _).le]
      push_cast
      rfl
    cases dipole <;> cases asr <;> cases loto <;>
      simp [weighted, orZero, this, div_eq_mul_inv]
  have h' : v * (m k.divNat : ℝ) * (e k / (√(m k.divNat) : ℝ)) = (√(m k.divNat) : ℝ) * (v * e k) := by
    rw [hmm]
    have := hs k.divNat
    field_simp
  rw [h', ← h k, Finset.mul_sum]
  refine Finset.sum_congr rfl fun l _ => ?_
  rw [hw l]
  have h1 := hs k.divNat
  have h2 := hs l.divNat
  field_simp

/-- One atom of mass 4 on springs of strength 8: the matrix is twice the identity. -/
example : ∀ k, ∑ l, weighted (massWeighting fun _ : Fin 1 => (4 : ℝ)) (fun k l => if k = l then 8 else 0)
    none none none k l * (fun _ => 1 : Fin (1 * 3) → ℂ) l = 2 * (fun _ => 1 : Fin (1 * 3) → ℂ) k := by
  have : √(4 * 4 : ℝ) = 4 := Real.sqrt_mul_self (by norm_num)
  intro k
  simp only [weighted, massWeighting, this, mul_one]
  rw [Finset.sum_eq_single k]
  · norm_num
  · intro l _ hl; simp [hl.symm]
  · simp

/-! ## C51 -/

/-- `evals_to_freqs` in the C extension (c/dyn_mat.c:388-396): `copysign(sqrt(fabs(e)), e)`; the sign of
a floating point zero is not modelled. -/
noncomputable def freqOfC (e : ℝ) : ℝ := if 0 ≤ e then √|e| else -√|e|

/-- **C51.** The reported frequency satisfies `f * |f| = e`, is negative exactly for negative
eigenvalues, zero exactly for zero, preserves the order, and is the same in both code paths. -/
theorem C51_frequency_sign (e : ℝ) :
    freqOf e * |freqOf e| = e ∧ (freqOf e < 0 ↔ e < 0) ∧ (freqOf e = 0 ↔ e = 0)
      ∧ (∀ e', e < e' → freqOf e < freqOf e') ∧ freqOfC e = freqOf e := by
  have hchar : ∀ x : ℝ, freqOf x * |freqOf x| = x := by
    intro x
    unfold freqOf
    split
    · rename_i h
      rw [mul_neg_one, abs_neg, abs_of_nonneg (Real.sqrt_nonneg _), neg_mul,
        Real.mul_self_sqrt (abs_nonneg _), abs_of_neg h, neg_neg]
    · rename_i h
      rw [abs_of_nonneg (Real.sqrt_nonneg _), Real.mul_self_sqrt (abs_nonneg _),
        abs_of_nonneg (not_lt.1 h)]
  have hmono : ∀ x y : ℝ, x < y → freqOf x < freqOf y := by
    intro x y hxy
    by_contra hle
    rw [not_lt] at hle
    have h1 := hchar x
    have h2 := hchar y
    rcases le_total 0 (freqOf y) with hy | hy
    · have hx := hy.trans hle
      rw [abs_of_nonneg hx] at h1
      rw [abs_of_nonneg hy] at h2
      nlinarith
    · rcases le_total 0 (freqOf x) with hx | hx
      · rw [abs_of_nonneg hx] at h1
        rw [abs_of_nonpos hy] at h2
        nlinarith
      · rw [abs_of_nonpos hx] at h1
        rw [abs_of_nonpos hy] at h2
        nlinarith
  have h0 : freqOf 0 = 0 := by simp [freqOf]
  refine ⟨hchar e, ⟨fun h => ?_, fun h => ?_⟩, ⟨fun h => ?_, fun h => by rw [h, h0]⟩, hmono e, ?_⟩
  · by_contra hle
    rcases (not_lt.1 hle).lt_or_eq with h' | h'
    · have := hmono 0 e h'
      rw [h0] at this
      linarith
    · rw [← h', h0] at h
      exact lt_irrefl _ h
  · have := hmono e 0 h
    rwa [h0] at this
  · have := hchar e
    rw [h] at this
    linarith
  · unfold freqOf freqOfC
    by_cases h : e < 0
    · rw [if_pos h, if_neg (not_le.2 h), mul_neg_one]
    · rw [if_neg h, if_pos (not_lt.1 h)]

/-- An imaginary mode. -/
example : freqOf (-4) = -2 := by
  unfold freqOf
  rw [if_pos (by norm_num), show |(-4 : ℝ)| = 2 ^ 2 by norm_num, Real.sqrt_sq (by norm_num)]
  norm_num

end Euphonic.DynMat
