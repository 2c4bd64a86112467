import Verif.Lemmas.CExt
import Verif.Props.DynMat

/-! # C52: the dynamical matrix of the C extension -/

set_option autoImplicit false

namespace Euphonic.CExt

open Euphonic.Lattice Euphonic.Phases Euphonic.Images Euphonic.DynMat

/-! ## Memory layout -/

/-- Specification: the arrays given to C hold, in row-major order, the data that the Python code uses:
image lists, origins, weighted force constants and Cartesian origins (shapes `(N, n, n)`,
`(N, n, n, max)`, `(N, 3)`, `(.., 3)`, `(N, 3n, 3n)`, `(N, n, n, max, 3)`). -/
structure Layout (I : DynIn) (cv : M3 ℝ) (fcw : Fin I.nCells → Mat I.n ℝ) (cells : Fin I.nCells → V3 ℤ)
    (scOs : List (V3 ℤ)) (ims : Fin I.nCells → Fin I.n → Fin I.n → List Nat) : Prop where
  count : ∀ (c : Fin I.nCells) (i j : Fin I.n), I.nScImages ((c * I.n + i) * I.n + j) = (ims c i j).length
  le_max : ∀ c i j, (ims c i j).length ≤ I.maxIm
  inRange : ∀ c i j, ∀ m ∈ ims c i j, m < scOs.length
  images : ∀ (c : Fin I.nCells) (i j : Fin I.n) (m : Nat) (hm : m < (ims c i j).length),
    I.scImageI (((c * I.n + i) * I.n + j) * I.maxIm + m) = (ims c i j)[m]
  cellOrigins : ∀ (c : Fin I.nCells) (k : Fin 3), I.cellOrigins (c * 3 + k) = comp (cells c) k
  scOrigins : ∀ (s : Nat) (hs : s < scOs.length) (k : Fin 3), I.scOrigins (s * 3 + k) = comp scOs[s] k
  fc : ∀ (c : Fin I.nCells) (k l : Fin (I.n * 3)), I.fc ((c * (I.n * 3) + k) * (I.n * 3) + l) = fcw c k l
  origins : ∀ (c : Fin I.nCells) (i j : Fin I.n) (m : Nat) (hm : m < (ims c i j).length) (d : Fin 3),
    I.allOrigins ((((c * I.n + i) * I.n + j) * I.maxIm + m) * 3 + d)
      = comp (add (scOriginCart cv scOs (ims c i j)[m]) (toCart cv (castV ℝ (cells c)))) d

/-- The array `_sc_image_i` of the Python code for these image lists. -/
def padded (I : DynIn) (ims : Fin I.nCells → Fin I.n → Fin I.n → List Nat) (c : Fin I.nCells)
    (i j : Fin I.n) : List ℤ :=
  (ims c i j).map (fun (m : Nat) => (m : ℤ)) ++ List.replicate (I.maxIm - (ims c i j).length) (-1)

/-- Three consecutive doubles holding a vector. -/
def Holds (m : Mem) (v : V3 ℝ) : Prop := m 0 = v.x ∧ m 1 = v.y ∧ m 2 = v.z

/-! ## Loops as sums -/

/-- What one element contributes. -/
noncomputable def elemAdd (grad : Bool) (ps : ℝ × ℝ × Mem) (f : ℝ) (idx : Nat) : Mem × Mem :=
  (Pi.single (2 * idx) (ps.1 * f) + Pi.single (2 * idx + 1) (ps.2.1 * f),
   if grad then ∑ k ∈ Finset.Ico 0 3, (Pi.single (6 * idx + 2 * k) (ps.2.2 (2 * k) * f)
     + Pi.single (6 * idx + 2 * k + 1) (ps.2.2 (2 * k + 1) * f)) else 0)

theorem elemStep_eq (grad : Bool) (ps : ℝ × ℝ × Mem) (f : ℝ) (idx : Nat) (s : Mem × Mem) :
    elemStep grad ps f idx s = s + elemAdd grad ps f idx := by
  unfold elemStep elemAdd
  refine Prod.ext ?_ ?_
  · simp only [addTo_eq, Prod.fst_add, add_assoc]
  · simp only [Prod.snd_add]
    split
    · rw [loop_add 0 3 _ (fun k => Pi.single (6 * idx + 2 * k) (ps.2.2 (2 * k) * f)
          + Pi.single (6 * idx + 2 * k + 1) (ps.2.2 (2 * k + 1) * f))]
      intro k _ _ s
      rw [addTo_eq, addTo_eq, add_assoc]
    · simp

theorem dynLoops_eq (I : DynIn) (grad : Bool) (qpt : Mem) (s : Mem × Mem) :
    dynLoops I grad qpt s = s + ∑ i ∈ Finset.Ico 0 I.n, ∑ j ∈ Finset.Ico i I.n,
      ∑ nc ∈ Finset.Ico 0 I.nCells, ∑ a ∈ Finset.Ico 0 3, ∑ b ∈ Finset.Ico 0 3,
        elemAdd grad (imageSums I grad qpt nc i j)
          (I.fc (nc * (9 * I.n * I.n) + elemIdx I.n i a j b)) (elemIdx I.n i a j b) := by
  unfold dynLoops
  refine loop_add _ _ _ _ (fun i _ _ s => ?_) s
  refine loop_add _ _ _ _ (fun j _ _ s => ?_) s
  refine loop_add _ _ _ _ (fun nc _ _ s => ?_) s
  refine loop_add _ _ _ _ (fun a _ _ s => ?_) s
  refine loop_add _ _ _ _ (fun b _ _ s => ?_) s
  exact elemStep_eq _ _ _ _ _

theorem collapse2 {σ : Type} [AddCommMonoid σ] (n i0 j0 : Nat) (hj0 : j0 < n) (G : Nat → Nat → σ)
    (h : ∀ i j, j < n → (i, j) ≠ (i0, j0) → G i j = 0) :
    ∑ i ∈ Finset.Ico 0 n, ∑ j ∈ Finset.Ico i n, G i j = if i0 ≤ j0 then G i0 j0 else 0 := by
  by_cases hle : i0 ≤ j0
  · rw [if_pos hle, Finset.sum_eq_single i0, Finset.sum_eq_single j0]
    · intro j hj hne; exact h _ _ (Finset.mem_Ico.1 hj).2 (by simp [hne])
    · intro hn; exact absurd (Finset.mem_Ico.2 ⟨hle, hj0⟩) hn
    · intro i _ hne; exact Finset.sum_eq_zero fun j hj => h _ _ (Finset.mem_Ico.1 hj).2 (by simp [hne])
    · intro hn; exact absurd (Finset.mem_Ico.2 ⟨by omega, by omega⟩) hn
  · rw [if_neg hle]
    refine Finset.sum_eq_zero fun i _ => Finset.sum_eq_zero fun j hj => h _ _ (Finset.mem_Ico.1 hj).2 ?_
    rintro ⟨⟩
    exact hle (Finset.mem_Ico.1 hj).1

theorem collapse3 {σ : Type} [AddCommMonoid σ] (a0 b0 : Nat) (ha0 : a0 < 3) (hb0 : b0 < 3) (H : Nat → Nat → σ)
    (h : ∀ a b, a < 3 → b < 3 → (a, b) ≠ (a0, b0) → H a b = 0) :
    ∑ a ∈ Finset.Ico 0 3, ∑ b ∈ Finset.Ico 0 3, H a b = H a0 b0 := by
  rw [Finset.sum_eq_single a0, Finset.sum_eq_single b0]
  · intro b hb hne; exact h _ _ ha0 (Finset.mem_Ico.1 hb).2 (by simp [hne])
  · intro hn; exact absurd (Finset.mem_Ico.2 ⟨by omega, hb0⟩) hn
  · intro a ha hne
    exact Finset.sum_eq_zero fun b hb => h _ _ (Finset.mem_Ico.1 ha).2 (Finset.mem_Ico.1 hb).2 (by simp [hne])
  · intro hn; exact absurd (Finset.mem_Ico.2 ⟨by omega, ha0⟩) hn

/-- Sums over the elements of the upper block triangle in which only one element counts. -/
theorem collapse {σ : Type} [AddCommMonoid σ] (n N i0 a0 j0 b0 : Nat) (hj0 : j0 < n) (ha0 : a0 < 3)
    (hb0 : b0 < 3) (F : Nat → Nat → Nat → Nat → Nat → σ)
    (h : ∀ i j nc a b, j < n → a < 3 → b < 3 → elemIdx n i a j b ≠ elemIdx n i0 a0 j0 b0 → F i j nc a b = 0) :
    ∑ i ∈ Finset.Ico 0 n, ∑ j ∈ Finset.Ico i n, ∑ nc ∈ Finset.Ico 0 N, ∑ a ∈ Finset.Ico 0 3,
      ∑ b ∈ Finset.Ico 0 3, F i j nc a b
      = if i0 ≤ j0 then ∑ nc ∈ Finset.Ico 0 N, F i0 j0 nc a0 b0 else 0 := by
  rw [collapse2 n i0 j0 hj0]
  · congr 1
    refine Finset.sum_congr rfl fun nc _ => collapse3 a0 b0 ha0 hb0 _ fun a b ha hb hne => ?_
    refine h _ _ _ _ _ hj0 ha hb fun he => hne ?_
    obtain ⟨-, h1, -, h2⟩ := elemIdx_inj ha hb hj0 ha0 hb0 hj0 he
    rw [h1, h2]
  · intro i j hj hne
    refine Finset.sum_eq_zero fun nc _ => Finset.sum_eq_zero fun a ha => Finset.sum_eq_zero fun b hb => ?_
    have ha' := (Finset.mem_Ico.1 ha).2
    have hb' := (Finset.mem_Ico.1 hb).2
    refine h _ _ _ _ _ hj ha' hb' fun he => hne ?_
    obtain ⟨h1, -, h2, -⟩ := elemIdx_inj ha' hb' hj ha0 hb0 hj0 he
    rw [h1, h2]

theorem elemAdd_re (grad : Bool) (ps : ℝ × ℝ × Mem) (f : ℝ) (idx idx0 : Nat) :
    (elemAdd grad ps f idx).1 (2 * idx0) = if idx = idx0 then ps.1 * f else 0 := by
  simp only [elemAdd, Pi.add_apply, Pi.single_apply]
  rw [if_neg (show ¬2 * idx0 = 2 * idx + 1 by omega), add_zero]
  by_cases h : idx = idx0
  · simp [h]
  · rw [if_neg (by omega), if_neg h]

theorem elemAdd_im (grad : Bool) (ps : ℝ × ℝ × Mem) (f : ℝ) (idx idx0 : Nat) :
    (elemAdd grad ps f idx).1 (2 * idx0 + 1) = if idx = idx0 then ps.2.1 * f else 0 := by
  simp only [elemAdd, Pi.add_apply, Pi.single_apply]
  rw [if_neg (show ¬2 * idx0 + 1 = 2 * idx by omega), zero_add]
  by_cases h : idx = idx0
  · simp [h]
  · rw [if_neg (by omega), if_neg h]

theorem elemAdd_grad (ps : ℝ × ℝ × Mem) (f : ℝ) (idx idx0 d part : Nat) (hd : d < 3) (hp : part < 2) :
    (elemAdd true ps f idx).2 (6 * idx0 + 2 * d + part)
      = if idx = idx0 then ps.2.2 (2 * d + part) * f else 0 := by
  simp only [elemAdd, if_true, Finset.sum_apply, Pi.add_apply, Pi.single_apply]
  by_cases h : idx = idx0
  · subst h
    rw [if_pos rfl, Finset.sum_eq_single d]
    · obtain rfl | rfl : part = 0 ∨ part = 1 := by omega
      · rw [if_pos (by omega), if_neg (by omega), add_zero]; rfl
      · rw [if_neg (by omega), if_pos (by omega), zero_add]
    · intro k _ hk
      rw [if_neg (by omega), if_neg (by omega), add_zero]
    · intro hn; exact absurd (Finset.mem_Ico.2 ⟨by omega, hd⟩) hn
  · rw [if_neg h]
    refine Finset.sum_eq_zero fun k hk => ?_
    have := (Finset.mem_Ico.1 hk).2
    rw [if_neg (by omega), if_neg (by omega), add_zero]

/-! ## Image sums -/

/-- The angle of one image. -/
noncomputable def angle (I : DynIn) (qpt : Mem) (nc i j m : Nat) : ℝ :=
  2 * Real.pi * loop 0 3 (fun k acc => acc + qpt k *
    ((I.scOrigins (3 * I.scImageI (I.imgIdx nc i j m) + k) + I.cellOrigins (3 * nc + k) : ℤ) : ℝ)) 0

theorem imageSums_eq (I : DynIn) (grad : Bool) (qpt : Mem) (nc i j : Nat) :
    let cnt := I.nScImages (nc * (I.n * I.n) + i * I.n + j)
    (imageSums I grad qpt nc i j).1 = ∑ m ∈ Finset.Ico 0 cnt, Real.cos (angle I qpt nc i j m)
    ∧ (imageSums I grad qpt nc i j).2.1 = ∑ m ∈ Finset.Ico 0 cnt, -Real.sin (angle I qpt nc i j m)
    ∧ (grad = true → ∀ d < 3,
        (imageSums I grad qpt nc i j).2.2 (2 * d)
          = ∑ m ∈ Finset.Ico 0 cnt, -Real.sin (angle I qpt nc i j m)
              * I.allOrigins (3 * I.imgIdx nc i j m + d)
        ∧ (imageSums I grad qpt nc i j).2.2 (2 * d + 1)
          = ∑ m ∈ Finset.Ico 0 cnt, Real.cos (angle I qpt nc i j m)
              * I.allOrigins (3 * I.imgIdx nc i j m + d)) := by
  intro cnt
  have h : imageSums I grad qpt nc i j = (0, 0, fun _ => 0) + ∑ m ∈ Finset.Ico 0 cnt,
      ((Real.cos (angle I qpt nc i j m), -Real.sin (angle I qpt nc i j m),
        if grad then ∑ k ∈ Finset.Ico 0 3,
          (Pi.single (2 * k) (-Real.sin (angle I qpt nc i j m) * I.allOrigins (3 * I.imgIdx nc i j m + k))
          + Pi.single (2 * k + 1)
              (Real.cos (angle I qpt nc i j m) * I.allOrigins (3 * I.imgIdx nc i j m + k)))
        else 0) : ℝ × ℝ × Mem) := by
    unfold imageSums
    refine loop_add _ _ _ _ (fun m _ _ s => ?_) _
    unfold imageStep
    refine Prod.ext rfl (Prod.ext rfl ?_)
    simp only [Prod.snd_add]
    split
    · refine loop_add _ _ _ _ (fun k _ _ s => ?_) _
      rw [addTo_eq, addTo_eq, add_assoc]
      rfl
    · simp
  rw [h]
  refine ⟨?_, ?_, ?_⟩
  · simp [Prod.fst_sum]
  · simp [Prod.fst_sum, Prod.snd_sum]
  · rintro rfl d hd
    simp only [if_true, Prod.snd_add, Prod.snd_sum, Pi.add_apply, Finset.sum_apply, zero_add, Pi.single_apply]
    constructor
    · refine Finset.sum_congr rfl fun m _ => ?_
      rw [Finset.sum_eq_single d]
      · rw [if_pos rfl, if_neg (by omega), add_zero]
      · intro k _ hk; rw [if_neg (by omega), if_neg (by omega), add_zero]
      · intro hn; exact absurd (Finset.mem_Ico.2 ⟨by omega, hd⟩) hn
    · refine Finset.sum_congr rfl fun m _ => ?_
      rw [Finset.sum_eq_single d]
      · rw [if_neg (by omega), if_pos rfl, zero_add]
      · intro k _ hk; rw [if_neg (by omega), if_neg (by omega), add_zero]
      · intro hn; exact absurd (Finset.mem_Ico.2 ⟨by omega, hd⟩) hn

theorem expQR_re (q : V3 ℝ) (R : V3 ℤ) :
    (expQR q R).re = Real.cos (2 * Real.pi * (q.x * R.x + q.y * R.y + q.z * R.z)) := by
  unfold expQR
  have h : (2 * Real.pi * (q.x * R.x + q.y * R.y + q.z * R.z : ℝ) * Complex.I : ℂ)
      = ((2 * Real.pi * (q.x * R.x + q.y * R.y + q.z * R.z) : ℝ) : ℂ) * Complex.I := by push_cast; ring
  rw [h, Complex.exp_ofReal_mul_I_re]

theorem expQR_im (q : V3 ℝ) (R : V3 ℤ) :
    (expQR q R).im = Real.sin (2 * Real.pi * (q.x * R.x + q.y * R.y + q.z * R.z)) := by
  unfold expQR
  have h : (2 * Real.pi * (q.x * R.x + q.y * R.y + q.z * R.z : ℝ) * Complex.I : ℂ)
      = ((2 * Real.pi * (q.x * R.x + q.y * R.y + q.z * R.z) : ℝ) : ℂ) * Complex.I := by push_cast; ring
  rw [h, Complex.exp_ofReal_mul_I_im]

section layout

variable {I : DynIn} {cv : M3 ℝ} {fcw : Fin I.nCells → Mat I.n ℝ} {cells : Fin I.nCells → V3 ℤ}
  {scOs : List (V3 ℤ)} {ims : Fin I.nCells → Fin I.n → Fin I.n → List Nat}

theorem Layout.imgIdx_eq (c i j m : Nat) :
    I.imgIdx c i j m = ((c * I.n + i) * I.n + j) * I.maxIm + m := by
  unfold DynIn.imgIdx; ring

/-- The origin of image `m` of a pair. -/
def origin (cells : Fin I.nCells → V3 ℤ) (scOs : List (V3 ℤ)) (c : Fin I.nCells) (s : Nat) : V3 ℤ :=
  add (scOs.getD s ⟨0, 0, 0⟩) (cells c)

theorem Layout.angle_eq (L : Layout I cv fcw cells scOs ims) {q : V3 ℝ} {qpt : Mem} (hq : Holds qpt q)
    (c : Fin I.nCells) (i j : Fin I.n) (m : Nat) (hm : m < (ims c i j).length) :
    Real.cos (angle I qpt c i j m) = (expQR q (origin cells scOs c (ims c i j)[m])).re
    ∧ Real.sin (angle I qpt c i j m) = (expQR q (origin cells scOs c (ims c i j)[m])).im := by
  have hs := L.inRange c i j _ (List.getElem_mem hm)
  have hang : angle I qpt c i j m = 2 * Real.pi * (q.x * (origin cells scOs c (ims c i j)[m]).x
      + q.y * (origin cells scOs c (ims c i j)[m]).y + q.z * (origin cells scOs c (ims c i j)[m]).z) := by
    unfold angle
    rw [imgIdx_eq, L.images c i j m hm, loop_three]
    have h0 := L.scOrigins _ hs 0
    have h1 := L.scOrigins _ hs 1
    have h2 := L.scOrigins _ hs 2
    have c0 := L.cellOrigins c 0
    have c1 := L.cellOrigins c 1
    have c2 := L.cellOrigins c 2
    simp only [comp] at h0 h1 h2 c0 c1 c2
    rw [mul_comm ((ims c i j)[m] : ℤ) 3] at h0 h1 h2
    rw [mul_comm (c : Nat) 3] at c0 c1 c2
    simp only [Fin.val_zero, Fin.val_one, Fin.val_two, Nat.cast_zero, Nat.cast_one, Nat.cast_ofNat] at *
    rw [h0, h1, h2, c0, c1, c2, hq.1, hq.2.1, hq.2.2]
    unfold origin
    rw [List.getD_eq_getElem _ _ hs]
    simp [add]
  rw [hang, expQR_re, expQR_im]
  exact ⟨rfl, rfl⟩

theorem sum_Ico_getElem {β : Type} [AddCommMonoid β] (l : List Nat) (f : Nat → β) (g : Nat → β)
    (h : ∀ m (hm : m < l.length), f m = g l[m]) :
    ∑ m ∈ Finset.Ico 0 l.length, f m = (l.map g).sum := by
  rw [← Finset.range_eq_Ico, Finset.sum_range, ← List.sum_ofFn]
  congr 1
  apply List.ext_getElem
  · simp
  · intro m h1 h2
    simp only [List.getElem_ofFn, List.getElem_map]
    exact h m _

theorem re_list_sum (l : List Nat) (f : Nat → ℂ) : ((l.map f).sum).re = (l.map fun s => (f s).re).sum := by
  induction l with
  | nil => rfl
  | cons a l ih => simp [ih]

theorem im_list_sum (l : List Nat) (f : Nat → ℂ) : ((l.map f).sum).im = (l.map fun s => (f s).im).sum := by
  induction l with
  | nil => rfl
  | cons a l ih => simp [ih]

/-- The sums over images, in terms of the Python data. -/
theorem Layout.imageSums_eq (L : Layout I cv fcw cells scOs ims) {q : V3 ℝ} {qpt : Mem} (hq : Holds qpt q)
    (grad : Bool) (c : Fin I.nCells) (i j : Fin I.n) :
    let S := ((ims c i j).map fun s => expQR q (origin cells scOs c s)).sum
    (imageSums I grad qpt c i j).1 = S.re ∧ (imageSums I grad qpt c i j).2.1 = -S.im
    ∧ (grad = true → ∀ d : Fin 3,
        let T := ((ims c i j).map fun s => expQR q (origin cells scOs c s) *
          (comp (add (scOriginCart cv scOs s) (toCart cv (castV ℝ (cells c)))) d : ℝ)).sum
        (imageSums I grad qpt c i j).2.2 (2 * d) = -T.im
        ∧ (imageSums I grad qpt c i j).2.2 (2 * d + 1) = T.re) := by
  intro S
  have hcnt : I.nScImages (c * (I.n * I.n) + i * I.n + j) = (ims c i j).length := by
    rw [← L.count c i j]; congr 1; ring
  obtain ⟨h1, h2, h3⟩ := CExt.imageSums_eq I grad qpt c i j
  rw [hcnt] at h1 h2 h3
  refine ⟨?_, ?_, ?_⟩
  · rw [h1, re_list_sum]
    exact sum_Ico_getElem _ _ (fun s => (expQR q (origin cells scOs c s)).re)
      fun m hm => (L.angle_eq hq c i j m hm).1
  · rw [h2, im_list_sum, Finset.sum_neg_distrib]
    congr 1
    exact sum_Ico_getElem _ _ (fun s => (expQR q (origin cells scOs c s)).im)
      fun m hm => (L.angle_eq hq c i j m hm).2
  · intro hg d T
    obtain ⟨e1, e2⟩ := h3 hg d d.2
    have ho : ∀ m (hm : m < (ims c i j).length), I.allOrigins (3 * I.imgIdx c i j m + d)
        = comp (add (scOriginCart cv scOs (ims c i j)[m]) (toCart cv (castV ℝ (cells c)))) d := by
      intro m hm
      rw [← L.origins c i j m hm d, imgIdx_eq, mul_comm 3]
    constructor
    · rw [e1, im_list_sum]
      simp only [neg_mul, Finset.sum_neg_distrib]
      congr 1
      apply sum_Ico_getElem _ _ (fun s => (expQR q (origin cells scOs c s) *
          (comp (add (scOriginCart cv scOs s) (toCart cv (castV ℝ (cells c)))) d : ℝ)).im)
      intro m hm
      rw [(L.angle_eq hq c i j m hm).2, ho m hm, Complex.im_mul_ofReal]
    · rw [e2, re_list_sum]
      apply sum_Ico_getElem _ _ (fun s => (expQR q (origin cells scOs c s) *
          (comp (add (scOriginCart cv scOs s) (toCart cv (castV ℝ (cells c)))) d : ℝ)).re)
      intro m hm
      rw [(L.angle_eq hq c i j m hm).1, ho m hm, Complex.re_mul_ofReal]

theorem Layout.fc_eq (L : Layout I cv fcw cells scOs ims) (c : Fin I.nCells) (k l : Fin (I.n * 3)) :
    I.fc (c * (9 * I.n * I.n) + elemIdx I.n k.divNat k.modNat l.divNat l.modNat) = fcw c k l := by
  rw [← L.fc c k l, elemIdx_fin]; congr 1; ring

/-- The Python matrix in the same terms. -/
theorem Layout.dynMat_eq (L : Layout I cv fcw cells scOs ims) (q : V3 ℝ) (k l : Fin (I.n * 3)) :
    dynMat fcw cells scOs (padded I ims) q k l = ∑ c, (fcw c k l : ℂ) *
      ((ims c k.divNat l.divNat).map fun s => expQR q (origin cells scOs c s)).sum := by
  unfold dynMat
  refine Finset.sum_congr rfl fun c _ => ?_
  unfold padded
  rw [C42_image_sum q scOs _ _ (L.inRange c _ _), cellPhase_eq, ← List.sum_map_mul_left]
  congr 3
  funext s
  rw [origin, expQR_add, mul_comm]

theorem Layout.dynGrad_eq (L : Layout I cv fcw cells scOs ims) (q : V3 ℝ) (d : Fin 3) (k l : Fin (I.n * 3)) :
    dynGrad cv fcw cells scOs (padded I ims) q d k l = ∑ c, (fcw c k l : ℂ) * (Complex.I *
      ((ims c k.divNat l.divNat).map fun s => expQR q (origin cells scOs c s) *
        (comp (add (scOriginCart cv scOs s) (toCart cv (castV ℝ (cells c)))) d : ℝ)).sum) := by
  unfold dynGrad
  refine Finset.sum_congr rfl fun c _ => ?_
  congr 2
  unfold padded
  rw [List.map_append, List.sum_append, List.map_replicate, phaseAt_pad, zero_mul, zero_mul,
    List.sum_replicate, smul_zero, add_zero, List.map_map]
  congr 1
  apply List.map_congr_left
  intro s hs
  have hlt := L.inRange c _ _ s hs
  simp only [Function.comp]
  rw [cellPhase_eq, origin, expQR_add]
  congr 2
  unfold phaseAt
  rw [if_pos (Int.natCast_nonneg s), Int.toNat_natCast, C42_phases,
    List.getD_eq_getElem _ _ (by simp; omega), List.getElem_append_left (by simpa using hlt),
    List.getElem_map, List.getD_eq_getElem _ _ hlt]

theorem sum_Ico_fin {β : Type} [AddCommMonoid β] (N : Nat) (f : Nat → β) :
    ∑ c ∈ Finset.Ico 0 N, f c = ∑ c : Fin N, f c := by
  rw [← Finset.range_eq_Ico, Finset.sum_range]

/-- **C52.** For every q-point, the array filled by `calculate_dyn_mat_at_q` holds the complex conjugate of
the Python dynamical matrix in the blocks on and above the diagonal and zero below, whatever it contained
before. -/
theorem C52_dyn_mat (L : Layout I cv fcw cells scOs ims) {q : V3 ℝ} {qpt : Mem} (hq : Holds qpt q)
    (grad : Bool) (d g : Mem) (k l : Fin (I.n * 3)) :
    cAt (calcDynMat I grad qpt d g).1 (k * (3 * I.n) + l) =
      if k.divNat ≤ l.divNat then star (dynMat fcw cells scOs (padded I ims) q k l) else 0 := by
  have hlt : elemIdx I.n k.divNat k.modNat l.divNat l.modNat < 9 * I.n * I.n :=
    elemIdx_lt k.divNat.2 k.modNat.2 l.divNat.2 l.modNat.2
  rw [← elemIdx_fin]
  unfold calcDynMat cAt
  rw [dynLoops_eq]
  simp only [Prod.fst_add, Prod.fst_sum, Pi.add_apply, Finset.sum_apply]
  have hsz : 2 * 9 * I.n * I.n = 2 * (9 * I.n * I.n) := by ring
  rw [clear_lt _ (by rw [hsz]; omega), clear_lt _ (by rw [hsz]; omega), zero_add, zero_add]
  simp only [elemAdd_re, elemAdd_im]
  rw [collapse I.n I.nCells k.divNat k.modNat l.divNat l.modNat l.divNat.2 k.modNat.2 l.modNat.2 _
      (fun i j nc a b _ _ _ hne => if_neg hne),
    collapse I.n I.nCells k.divNat k.modNat l.divNat l.modNat l.divNat.2 k.modNat.2 l.modNat.2 _
      (fun i j nc a b _ _ _ hne => if_neg hne)]
  simp only [if_true, sum_Ico_fin, L.fc_eq, Fin.le_def]
  by_cases hle : (k.divNat : Nat) ≤ l.divNat
  · simp only [if_pos hle]
    rw [L.dynMat_eq]
    apply Complex.ext
    · simp only [Complex.star_def, Complex.conj_re, Complex.re_sum, Complex.re_ofReal_mul]
      refine Finset.sum_congr rfl fun c _ => ?_
      rw [(L.imageSums_eq hq grad c _ _).1, mul_comm]
    · simp only [Complex.star_def, Complex.conj_im, Complex.im_sum, Complex.im_ofReal_mul]
      rw [← Finset.sum_neg_distrib]
      refine Finset.sum_congr rfl fun c _ => ?_
      rw [(L.imageSums_eq hq grad c _ _).2.1]
      ring
  · simp only [if_neg hle]
    rfl

/-! ## Gradient -/

/-- Positions of the two doubles of the gradient along `d` of an element. -/
def GradPos (idx : Nat) (p : Nat) : Prop := ∃ d part, d < 3 ∧ part < 2 ∧ p = 6 * idx + 2 * d + part

theorem gradPos_inj {idx idx' p : Nat} (h : GradPos idx p) (h' : GradPos idx' p) : idx = idx' := by
  obtain ⟨d, pt, _, _, rfl⟩ := h
  obtain ⟨d', pt', _, _, h⟩ := h'
  omega

/-- The innermost loop of `fillLower`. -/
noncomputable def fillElem (idx idxT : Nat) (m : Mem) : Mem := loop 0 3 (fun k m =>
  setAt (setAt m (6 * idx + 2 * k) (m (6 * idxT + 2 * k))) (6 * idx + 2 * k + 1)
    (-(setAt m (6 * idx + 2 * k) (m (6 * idxT + 2 * k))) (6 * idxT + 2 * k + 1))) m

theorem fill_elem (idx idxT : Nat) (hne : idx ≠ idxT) :
    Writes (fillElem idx idxT) (GradPos idx) (GradPos idxT) ∧
    ∀ m d, d < 3 → fillElem idx idxT m (6 * idx + 2 * d) = m (6 * idxT + 2 * d) ∧
      fillElem idx idxT m (6 * idx + 2 * d + 1) = -m (6 * idxT + 2 * d + 1) := by
  obtain ⟨h1, h2⟩ := loop_writes 0 3 (fun k m =>
      setAt (setAt m (6 * idx + 2 * k) (m (6 * idxT + 2 * k))) (6 * idx + 2 * k + 1)
        (-(setAt m (6 * idx + 2 * k) (m (6 * idxT + 2 * k))) (6 * idxT + 2 * k + 1)))
    (fun k p => ∃ part < 2, p = 6 * idx + 2 * k + part) (fun k p => ∃ part < 2, p = 6 * idxT + 2 * k + part)
    (fun k _ hk => ⟨fun m p hp => by
      have h0 : p ≠ 6 * idx + 2 * k := fun h => hp ⟨0, by omega, by omega⟩
      have h1 : p ≠ 6 * idx + 2 * k + 1 := fun h => hp ⟨1, by omega, by omega⟩
      simp [setAt, Function.update_of_ne h0, Function.update_of_ne h1],
      fun m m' p hp ha => by
        obtain ⟨pt, hpt, rfl⟩ := hp
        have e0 := ha (6 * idxT + 2 * k) ⟨0, by omega, by omega⟩
        have e1 := ha (6 * idxT + 2 * k + 1) ⟨1, by omega, by omega⟩
        obtain rfl | rfl : pt = 0 ∨ pt = 1 := by omega
        · simp [setAt, Function.update_apply, e0]
        · rw [setAt, setAt, setAt, setAt, Function.update_self, Function.update_self,
            Function.update_of_ne (by omega), Function.update_of_ne (by omega), e1]⟩)
    (fun k _ hk k' _ hk' p => by rintro ⟨a, ha, rfl⟩ ⟨b, hb, h⟩; omega)
    (fun k _ hk k' _ hk' p => by rintro ⟨a, ha, rfl⟩ ⟨b, hb, h⟩; omega)
  refine ⟨?_, ?_⟩
  · refine ⟨fun m p hp => h1.frame m p ?_, fun m m' p hp ha => h1.reads m m' p ?_ ?_⟩
    · rintro ⟨k, _, hk, pt, hpt, rfl⟩; exact hp ⟨k, pt, hk, hpt, rfl⟩
    · obtain ⟨k, pt, hk, hpt, rfl⟩ := hp; exact ⟨k, by omega, hk, pt, hpt, rfl⟩
    · rintro q ⟨k, _, hk, pt, hpt, rfl⟩; exact ha _ ⟨k, pt, hk, hpt, rfl⟩
  · intro m d hd
    constructor
    · refine (h2 d (by omega) hd m _ ⟨0, by omega, rfl⟩).trans ?_
      simp [setAt, Function.update_apply]
    · refine (h2 d (by omega) hd m _ ⟨1, by omega, rfl⟩).trans ?_
      rw [setAt, setAt, Function.update_self, Function.update_of_ne (by omega)]

/-- What `fillLower` does: below the diagonal the conjugate of the transposed element, elsewhere
nothing. -/
theorem fillLower_eq (n : Nat) (g : Mem) {i a j b d : Nat} (hi : i < n) (ha : a < 3) (hj : j < n) (hb : b < 3)
    (hd : d < 3) :
    (j < i → fillLower n g (6 * elemIdx n i a j b + 2 * d) = g (6 * elemIdx n j b i a + 2 * d)
      ∧ fillLower n g (6 * elemIdx n i a j b + 2 * d + 1) = -g (6 * elemIdx n j b i a + 2 * d + 1)) ∧
    (i ≤ j → ∀ part < 2, fillLower n g (6 * elemIdx n i a j b + 2 * d + part)
      = g (6 * elemIdx n i a j b + 2 * d + part)) := by
  -- `fe i j a b`: the innermost loop
  have inner : ∀ i j a b, j < i → i < n → a < 3 → b < 3 → _ := fun i j a b hji hin ha hb =>
    fill_elem (elemIdx n i a j b) (elemIdx n j b i a) (fun he => by
      have := elemIdx_inj ha hb (by omega) hb ha hin he
      omega)
  have lb : ∀ i j a, j < i → i < n → a < 3 → _ := fun i j a hji hin ha =>
    loop_writes 0 3 (fun b => fillElem (elemIdx n i a j b) (elemIdx n j b i a))
      (fun b => GradPos (elemIdx n i a j b)) (fun b => GradPos (elemIdx n j b i a))
      (fun b _ hb => (inner i j a b hji hin ha hb).1)
      (fun b _ hb b' _ hb' p h h' => (elemIdx_inj ha hb (by omega) ha hb' (by omega) (gradPos_inj h h')).2.2.2)
      (fun b _ hb b' _ hb' p h h' => by
        have := elemIdx_inj hb ha (by omega) ha hb' (by omega) (gradPos_inj h h')
        omega)
  have la : ∀ i j, j < i → i < n → _ := fun i j hji hin =>
    loop_writes 0 3 _ _ _ (fun a _ ha => (lb i j a hji hin ha).1)
      (fun a _ ha a' _ ha' p => by
        rintro ⟨b, _, hb, h⟩ ⟨b', _, hb', h'⟩
        exact (elemIdx_inj ha hb (by omega) ha' hb' (by omega) (gradPos_inj h h')).2.1)
      (fun a _ ha a' _ ha' p => by
        rintro ⟨b, _, hb, h⟩ ⟨b', _, hb', h'⟩
        have := elemIdx_inj hb ha (by omega) ha' hb' (by omega) (gradPos_inj h h')
        omega)
  have lj : ∀ i, i < n → _ := fun i hin =>
    loop_writes 0 i _ _ _ (fun j _ hji => (la i j hji hin).1)
      (fun j _ hj j' _ hj' p => by
        rintro ⟨a, _, ha, b, _, hb, h⟩ ⟨a', _, ha', b', _, hb', h'⟩
        exact (elemIdx_inj ha hb (by omega) ha' hb' (by omega) (gradPos_inj h h')).2.2.1)
      (fun j _ hj j' _ hj' p => by
        rintro ⟨a, _, ha, b, _, hb, h⟩ ⟨a', _, ha', b', _, hb', h'⟩
        have := elemIdx_inj hb ha (by omega) ha' hb' (by omega) (gradPos_inj h h')
        omega)
  have li := loop_writes 1 n _ _ _ (fun i _ hin => (lj i hin).1)
      (fun i _ hi i' _ hi' p => by
        rintro ⟨j, _, hj, a, _, ha, b, _, hb, h⟩ ⟨j', _, hj', a', _, ha', b', _, hb', h'⟩
        exact (elemIdx_inj ha hb (by omega) ha' hb' (by omega) (gradPos_inj h h')).1)
      (fun i _ hi i' _ hi' p => by
        rintro ⟨j, _, hj, a, _, ha, b, _, hb, h⟩ ⟨j', _, hj', a', _, ha', b', _, hb', h'⟩
        have := elemIdx_inj hb ha (by omega) ha' hb' (by omega) (gradPos_inj h h')
        omega)
  have val : j < i → ∀ part < 2, fillLower n g (6 * elemIdx n i a j b + 2 * d + part)
      = fillElem (elemIdx n i a j b) (elemIdx n j b i a) g (6 * elemIdx n i a j b + 2 * d + part) :=
    fun hji part hpt => by
    have hw : GradPos (elemIdx n i a j b) (6 * elemIdx n i a j b + 2 * d + part) := ⟨d, part, hd, hpt, rfl⟩
    have e1 := li.2 i (by omega) hi g _ ⟨j, by omega, hji, a, by omega, ha, b, by omega, hb, hw⟩
    rw [(lj i hi).2 j (by omega) hji g _ ⟨a, by omega, ha, b, by omega, hb, hw⟩,
      (la i j hji hi).2 a (by omega) ha g _ ⟨b, by omega, hb, hw⟩,
      (lb i j a hji hi ha).2 b (by omega) hb g _ hw] at e1
    exact e1
  refine ⟨fun hji => ⟨?_, ?_⟩, fun hij part hpt => ?_⟩
  · exact (val hji 0 (by omega)).trans ((inner i j a b hji hi ha hb).2 g d hd).1
  · exact (val hji 1 (by omega)).trans ((inner i j a b hji hi ha hb).2 g d hd).2
  · refine li.1.frame g _ ?_
    rintro ⟨i', _, hi', j', _, hj', a', _, ha', b', _, hb', h'⟩
    have := elemIdx_inj ha hb (by omega) ha' hb' (by omega) (gradPos_inj ⟨d, part, hd, hpt, rfl⟩ h')
    omega

/-- **C52.** For every q-point, the gradient array filled by `calculate_dyn_mat_at_q` holds the Python
gradient in the blocks on and above the diagonal, and the Hermitian conjugate of these below. -/
theorem C52_gradient (L : Layout I cv fcw cells scOs ims) {q : V3 ℝ} {qpt : Mem} (hq : Holds qpt q)
    (dm g : Mem) (k l : Fin (I.n * 3)) (d : Fin 3) :
    cAt (calcDynMat I true qpt dm g).2 ((k * (3 * I.n) + l) * 3 + d) =
      if k.divNat ≤ l.divNat then dynGrad cv fcw cells scOs (padded I ims) q d k l
      else star (dynGrad cv fcw cells scOs (padded I ims) q d l k) := by
  have up : ∀ k l : Fin (I.n * 3), k.divNat ≤ l.divNat → ∀ part < 2,
      (dynLoops I true qpt (clear (2 * 9 * I.n * I.n) dm, clear (3 * 2 * 9 * I.n * I.n) g)).2
        (6 * elemIdx I.n k.divNat k.modNat l.divNat l.modNat + 2 * d + part)
      = if part = 0 then (dynGrad cv fcw cells scOs (padded I ims) q d k l).re
        else (dynGrad cv fcw cells scOs (padded I ims) q d k l).im := by
    intro k l hle part hpt
    have hlt : elemIdx I.n k.divNat k.modNat l.divNat l.modNat < 9 * I.n * I.n :=
      elemIdx_lt k.divNat.2 k.modNat.2 l.divNat.2 l.modNat.2
    have hd := d.2
    rw [dynLoops_eq]
    simp only [Prod.snd_add, Prod.snd_sum, Pi.add_apply, Finset.sum_apply]
    have hsz : 3 * 2 * 9 * I.n * I.n = 6 * (9 * I.n * I.n) := by ring
    rw [clear_lt _ (by rw [hsz]; omega), zero_add]
    simp only [elemAdd_grad _ _ _ _ _ _ d.2 hpt]
    rw [collapse I.n I.nCells k.divNat k.modNat l.divNat l.modNat l.divNat.2 k.modNat.2 l.modNat.2 _
      (fun i j nc a b _ _ _ hne => if_neg hne)]
    rw [Fin.le_def] at hle
    simp only [if_true, sum_Ico_fin, L.fc_eq, if_pos hle]
    rw [L.dynGrad_eq]
    obtain rfl | rfl : part = 0 ∨ part = 1 := by omega
    · rw [if_pos rfl]
      simp only [Complex.re_sum, Complex.re_ofReal_mul, Complex.I_mul_re]
      refine Finset.sum_congr rfl fun c _ => ?_
      rw [add_zero, ((L.imageSums_eq hq true c _ _).2.2 rfl d).1]
      ring
    · rw [if_neg (by omega)]
      simp only [Complex.im_sum, Complex.im_ofReal_mul, Complex.I_mul_im]
      refine Finset.sum_congr rfl fun c _ => ?_
      rw [((L.imageSums_eq hq true c _ _).2.2 rfl d).2]
      ring
  rw [← elemIdx_fin]
  unfold calcDynMat cAt
  have e2 : 2 * (elemIdx I.n k.divNat k.modNat l.divNat l.modNat * 3 + d)
      = 6 * elemIdx I.n k.divNat k.modNat l.divNat l.modNat + 2 * d := by ring
  simp only [if_true, e2]
  obtain ⟨h1, h2⟩ := fillLower_eq I.n
    (dynLoops I true qpt (clear (2 * 9 * I.n * I.n) dm, clear (3 * 2 * 9 * I.n * I.n) g)).2
    k.divNat.2 k.modNat.2 l.divNat.2 l.modNat.2 d.2
  by_cases hle : k.divNat ≤ l.divNat
  · rw [if_pos hle]
    have e0 := h2 hle 0 (by omega)
    have e1 := h2 hle 1 (by omega)
    rw [add_zero] at e0
    rw [e0, e1, up k l hle 1 (by omega)]
    have := up k l hle 0 (by omega)
    rw [add_zero] at this
    rw [this]
    rfl
  · rw [if_neg hle]
    have hlt : (l.divNat : Nat) < k.divNat := by rw [Fin.le_def] at hle; omega
    obtain ⟨e0, e1⟩ := h1 hlt
    have hle' : l.divNat ≤ k.divNat := by rw [Fin.le_def]; omega
    rw [e0, e1, up l k hle' 1 (by omega)]
    have := up l k hle' 0 (by omega)
    rw [add_zero] at this
    rw [this]
    rfl

end layout

end Euphonic.CExt
