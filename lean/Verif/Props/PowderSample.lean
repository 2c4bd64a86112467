import Verif.Model.PowderSample
import Verif.Props.Sqw
import Verif.Props.Cli
import Verif.Props.Powder
import Verif.Props.Lattice

/-! # Property C140: averages over a sphere with default bins and temperatures -/

set_option autoImplicit false
set_option linter.unusedSectionVars false

namespace Euphonic.PowderSample

open Euphonic.Lattice

/-! ## Specification -/

/-- The highest energy of the modes at some q-points. -/
def Highest {nm : Nat} (l : List (V3 ℝ)) (freqs : V3 ℝ → Fin nm → ℝ) (M : ℝ) : Prop :=
  (∃ q ∈ l, ∃ m, freqs q m = M) ∧ ∀ q ∈ l, ∀ m, freqs q m ≤ M

/-- The sum of a quantity over all modes at some q-points. -/
def total {nm : Nat} (l : List (V3 ℝ)) (g : V3 ℝ → Fin nm → ℝ) : ℝ := (l.map fun q => ∑ m, g q m).sum

/-- Edge `i` of a thousand equal bins from zero to 1.05 times `M`. -/
noncomputable def edge (M : ℝ) (i : Nat) : ℝ := i * (105 / 100 * M / 1000)

/-- The energy `e` is in bin `i` of those bins. -/
def In (M : ℝ) (i : Nat) (e : ℝ) : Prop := edge M i ≤ e ∧ e < edge M (i + 1)

noncomputable instance (M : ℝ) (i : Nat) (e : ℝ) : Decidable (In M i e) := by unfold In; infer_instance

/-- The area under a spectrum with given edges. -/
def area (b y : List ℝ) : ℝ := ∑ i ∈ Finset.range (b.length - 1), y.getD i 0 * (b.getD (i + 1) 0 - b.getD i 0)

/-- The mean number of phonons of energy `e` at temperature `t`. -/
noncomputable def population (kB t e : ℝ) : ℝ := if 0 < t then 1 / (Real.exp (|e| / (kB * t)) - 1) else 0

/-- What a structure factor is multiplied with where the neutron loses the energy of the mode. -/
noncomputable def loss (kB : ℝ) (t : Option ℝ) (e : ℝ) : ℝ := t.elim 1 fun t => 1 + population kB t e

/-- What a structure factor is multiplied with where the neutron gains the energy of the mode. -/
noncomputable def gain (kB : ℝ) (t : Option ℝ) (e : ℝ) : ℝ := t.elim 1 fun t => population kB t e

/-! ## Auxiliary facts -/

theorem sum_fin_list {l : List (V3 ℝ)} (g : V3 ℝ → ℝ) : (∑ q : Fin l.length, g l[q]) = (l.map g).sum := by
  rw [← Fin.sum_univ_getElem (l.map g)]
  refine Finset.sum_bij (fun i _ => ⟨i.1, by simp⟩) (by simp) (fun a _ b _ h => Fin.ext (by simpa using h)) (fun b _ => ?_)
    (fun i _ => by simp)
  exact ⟨⟨b.1, by simpa using b.2⟩, by simp, rfl⟩

theorem sum_defaultWeights (n : Nat) (hn : 0 < n) : (∑ q, (Dos.defaultWeights n q : ℝ)) = 1 := by
  have : (n : ℝ) ≠ 0 := by exact_mod_cast hn.ne'
  simp [Dos.defaultWeights, this]

theorem defaultBins_eq {nm : Nat} (cf : ℝ) (hc : 0 < cf) (l : List (V3 ℝ)) (freqs : V3 ℝ → Fin nm → ℝ) (M : ℝ)
    (h : Highest l freqs M) :
    defaultBins cf 1000 (fun (q : Fin l.length) m => freqs l[q] m) = .ok (Cli.linspace 0 (M / cf * (105 / 100)) 1001) := by
  set L := (List.finRange l.length).flatMap fun q => (List.finRange nm).map fun m => freqs l[q] m / cf with hL
  obtain ⟨⟨q, hq, m, hm⟩, hle⟩ := h
  obtain ⟨i, hi, rfl⟩ := List.getElem_of_mem hq
  have hin : M / cf ∈ L := by
    rw [hL]
    simp only [List.mem_flatMap, List.mem_map, List.mem_finRange, true_and]
    exact ⟨⟨i, hi⟩, m, by rw [← hm]; rfl⟩
  obtain ⟨v, h1, h2, h3⟩ := Cli.npMax_spec L (List.ne_nil_of_mem hin)
  have : v = M / cf := by
    apply le_antisymm _ (h3 _ hin)
    rw [hL] at h2
    simp only [List.mem_flatMap, List.mem_map, List.mem_finRange, true_and] at h2
    obtain ⟨q, m, rfl⟩ := h2
    exact div_le_div_of_nonneg_right (hle _ (List.getElem_mem _) _) hc.le
  subst this
  unfold defaultBins
  rw [← hL, h1]
  rfl

theorem linspace_getD (M : ℝ) (i : Nat) (hi : i < 1001) :
    (Cli.linspace 0 (M * (105 / 100)) 1001).getD i 0 = edge M i := by
  rw [List.getD, Cli.linspace_get _ _ 1001 (by norm_num) i hi, Option.getD_some]
  unfold edge
  push_cast
  ring

theorem length_linspace (a b : ℝ) (n : Nat) : (Cli.linspace a b n).length = n := by simp [Cli.linspace]

theorem linspace_sorted (M : ℝ) (hM : 0 < M) : (Cli.linspace 0 (M * (105 / 100)) 1001).Pairwise (· < ·) := by
  rw [List.pairwise_iff_getElem]
  intro i j hi hj hij
  rw [length_linspace] at hi hj
  rw [← List.getD_eq_getElem _ 0, ← List.getD_eq_getElem _ 0, linspace_getD M i hi, linspace_getD M j hj]
  unfold edge
  have : (i : ℝ) < j := by exact_mod_cast hij
  have h : 0 < 105 / 100 * M / 1000 := by positivity
  exact mul_lt_mul_of_pos_right this h

theorem linspace_inRange (M cf e : ℝ) (hc : 0 < cf) :
    Dos.InRange (Cli.linspace 0 (M / cf * (105 / 100)) 1001) (e / cf) ↔ 0 ≤ e ∧ e < 105 / 100 * M := by
  unfold Dos.InRange
  rw [length_linspace, linspace_getD _ _ (by norm_num), linspace_getD _ _ (by norm_num)]
  unfold edge
  norm_num
  rw [le_div_iff₀ hc, zero_mul]
  refine and_congr_right fun _ => ?_
  rw [show (21 / 20 : ℝ) * (M / cf) / 1000 = 21 / 20 * M / 1000 / cf by ring, ← mul_div_assoc,
    div_lt_div_iff_of_pos_right hc]
  constructor <;> intro h <;> linarith

theorem linspace_inBin (M cf e : ℝ) (hc : 0 < cf) (i : Nat) (hi : i < 1000) :
    Dos.InBin (Cli.linspace 0 (M / cf * (105 / 100)) 1001) i (e / cf) ↔ In M i e := by
  unfold Dos.InBin In
  rw [linspace_getD _ _ (by omega), linspace_getD _ _ (by omega)]
  have h : ∀ k, edge (M / cf) k = edge M k / cf := fun k => by unfold edge; ring
  rw [h, h, div_le_div_iff_of_pos_right hc, div_lt_div_iff_of_pos_right hc]


theorem points_ne_nil {D : Type} {s : Source D} {recip : ℝ} {sp : Sphere} {l : List (V3 ℝ)}
    (h : points s recip sp = .ok l) : 0 < l.length := by
  unfold points at h
  cases h1 : Powder.sphereQptsFrac sp.npts sp.method sp.jitter sp.ringJitter sp.rnd sp.modQ recip s.cell with
  | error e => rw [h1] at h; cases h
  | ok l' =>
    rw [h1] at h
    simp only [bind, Except.bind] at h
    split at h
    · cases h
    · rename_i h2
      cases h
      exact List.length_pos_iff.2 (by simpa using h2)

theorem dos_unfold {D : Type} {s : Source D} {cf recip : ℝ} {sp : Sphere} {l : List (V3 ℝ)}
    (hp : points s recip sp = .ok l) (g : Option (ℝ × List ℝ)) (c : ℝ) (b : List ℝ)
    (hb : binsInUse cf g (fun (q : Fin l.length) (m : Fin (3 * s.nAtoms)) => s.freqs l[q] m) = .ok (c, b)) :
    dos s cf recip sp g = (Dos.calculateDos c b (fun (q : Fin l.length) (m : Fin (3 * s.nAtoms)) => s.freqs l[q] m)
      (Dos.defaultWeights l.length)).map fun y => (c, b, y) := by
  unfold dos
  rw [hp]
  simp only [bind, Except.bind] at hb ⊢
  rw [hb]
  dsimp only
  cases Dos.calculateDos c b (fun (q : Fin l.length) (m : Fin (3 * s.nAtoms)) => s.freqs l[q] m)
      (Dos.defaultWeights l.length) <;> rfl

theorem binTotal_list {nm : Nat} (b : List ℝ) (c : ℝ) (l : List (V3 ℝ)) (freqs : V3 ℝ → Fin nm → ℝ) (k : ℝ) (i : Nat) :
    Dos.binTotal b c (fun (q : Fin l.length) m => freqs l[q] m) (fun _ _ => k) i =
      k * total l fun q m => if Dos.InBin b i (freqs q m / c) then 1 else 0 := by
  unfold Dos.binTotal total
  rw [← sum_fin_list fun q => ∑ m, if Dos.InBin b i (freqs q m / c) then (1 : ℝ) else 0, Finset.mul_sum]
  refine Finset.sum_congr rfl fun q _ => ?_
  rw [Finset.mul_sum]
  refine Finset.sum_congr rfl fun m _ => ?_
  split <;> simp

theorem total_congr {nm : Nat} (l : List (V3 ℝ)) (g g' : V3 ℝ → Fin nm → ℝ) (h : ∀ q ∈ l, ∀ m, g q m = g' q m) :
    total l g = total l g' := by
  unfold total
  congr 1
  exact List.map_congr_left fun q hq => Finset.sum_congr rfl fun m _ => h q hq m

/-- **C140**. The density of states averaged over a sphere, for bins in any unit of energy: the share of the modes on
the sphere that are in each bin, per width, and the area for all of them is 3. -/
theorem C140_given_bins {D : Type} (s : Source D) (cf recip : ℝ) (sp : Sphere) (l : List (V3 ℝ))
    (hp : points s recip sp = .ok l) (hn : 0 < s.nAtoms) (c : ℝ) (hc : 0 < c) (b : List ℝ) (hs : b.Pairwise (· < ·)) :
    ∃ y, dos s cf recip sp (some (c, b)) = .ok (c, b, y) ∧ y.length = b.length - 1 ∧
      (∀ i < b.length - 1, y.getD i 0 * (b.getD (i + 1) 0 - b.getD i 0) * (l.length * (3 * s.nAtoms)) =
        3 * total l fun q m => if Dos.InBin b i (s.freqs q m / c) then 1 else 0) ∧
      area b y * (l.length * (3 * s.nAtoms)) =
        3 * total l fun q m => if Dos.InRange b (s.freqs q m / c) then 1 else 0 := by
  have hs' : b.Pairwise (· ≤ ·) := hs.imp le_of_lt
  have hl := points_ne_nil hp
  have hl' : (l.length : ℝ) ≠ 0 := by exact_mod_cast hl.ne'
  have hn' : (s.nAtoms : ℝ) ≠ 0 := by exact_mod_cast hn.ne'
  have h1 := Dos.C21_dos_counts_modes_in_bin c hc b hs' (by omega : 0 < 3 * s.nAtoms)
    (fun (q : Fin l.length) (m : Fin (3 * s.nAtoms)) => s.freqs l[q] m) (Dos.defaultWeights l.length)
  rw [sum_defaultWeights _ hl] at h1
  have key : ∀ i < b.length - 1, ((List.range (b.length - 1)).map fun i =>
      Dos.binTotal b c (fun (q : Fin l.length) (m : Fin (3 * s.nAtoms)) => s.freqs l[q] m)
        (fun q _ => Dos.defaultWeights l.length q * (3 / ((3 * s.nAtoms : Nat) : ℝ))) i /
        (b.getD (i + 1) 0 - b.getD i 0) / 1).getD i 0 * (b.getD (i + 1) 0 - b.getD i 0) * (l.length * (3 * s.nAtoms)) =
      3 * total l fun q m => if Dos.InBin b i (s.freqs q m / c) then 1 else 0 := by
    intro i hi
    rw [List.getD_eq_getElem _ _ (by simpa using hi), List.getElem_map, List.getElem_range]
    have hd : b.getD (i + 1) 0 - b.getD i 0 ≠ 0 := by
      have := List.pairwise_iff_getElem.1 hs i (i + 1) (by omega) (by omega) (by omega)
      rw [List.getD_eq_getElem _ _ (by omega), List.getD_eq_getElem _ _ (by omega)]
      linarith
    have := binTotal_list b c l s.freqs (1 / (l.length : ℝ) * (3 / ((3 * s.nAtoms : Nat) : ℝ))) i
    simp only [Dos.defaultWeights] at this ⊢
    rw [this]
    generalize (total l fun q m => if Dos.InBin b i (s.freqs q m / c) then (1 : ℝ) else 0) = T
    push_cast
    field_simp
  refine ⟨_, ?_, ?_, key, ?_⟩
  · rw [dos_unfold hp (some (c, b)) c b rfl, h1]
    rfl
  · simp
  · unfold area
    rw [Finset.sum_mul, Finset.sum_congr rfl fun i hi => key i (Finset.mem_range.1 hi), ← Finset.mul_sum]
    congr 1
    unfold total
    simp only [← sum_fin_list fun q => ∑ m, if Dos.InRange b (s.freqs q m / c) then (1 : ℝ) else 0]
    have e : ∀ i, ((l.map fun q => ∑ m, if Dos.InBin b i (s.freqs q m / c) then (1 : ℝ) else 0).sum) =
        ∑ q : Fin l.length, ∑ m, if Dos.InBin b i (s.freqs l[q] m / c) then (1 : ℝ) else 0 := fun i =>
      (sum_fin_list fun q => ∑ m, if Dos.InBin b i (s.freqs q m / c) then (1 : ℝ) else 0).symm
    rw [Finset.sum_congr rfl fun i _ => e i, Finset.sum_comm]
    refine Finset.sum_congr rfl fun q _ => ?_
    rw [Finset.sum_comm]
    exact Finset.sum_congr rfl fun m _ => Dos.sum_inBin b hs' _ _

theorem dos_default {D : Type} {s : Source D} {cf recip : ℝ} (hc : 0 < cf) {sp : Sphere} {l : List (V3 ℝ)}
    (hp : points s recip sp = .ok l) {M : ℝ} (h : Highest l s.freqs M) :
    dos s cf recip sp none = dos s cf recip sp (some (cf, Cli.linspace 0 (M / cf * (105 / 100)) 1001)) := by
  rw [dos_unfold hp none cf (Cli.linspace 0 (M / cf * (105 / 100)) 1001), dos_unfold hp _ cf _ rfl]
  unfold binsInUse
  simp only [defaultBins_eq cf hc l s.freqs M h]
  rfl

/-- **C140**. Without bins the density of states has a thousand equal bins from zero to 1.05 times the highest energy
`M` on the sphere, in the unit of the frequencies.  If `M` is positive, each mode whose energy is not negative is counted in exactly
the bin that contains it, and the area is 3 times their share of all modes. -/
theorem C140_default_bins {D : Type} (s : Source D) (cf recip : ℝ) (hc : 0 < cf) (sp : Sphere) (l : List (V3 ℝ))
    (hp : points s recip sp = .ok l) (hn : 0 < s.nAtoms) (M : ℝ) (h : Highest l s.freqs M) (hM : 0 < M) :
    ∃ b y, dos s cf recip sp none = .ok (cf, b, y) ∧ b.length = 1001 ∧ y.length = 1000 ∧
      (∀ i ≤ 1000, b.getD i 0 * cf = edge M i) ∧
      (∀ i < 1000, y.getD i 0 * (b.getD (i + 1) 0 - b.getD i 0) * (l.length * (3 * s.nAtoms)) =
        3 * total l fun q m => if In M i (s.freqs q m) then 1 else 0) ∧
      area b y * (l.length * (3 * s.nAtoms)) = 3 * total l fun q m => if 0 ≤ s.freqs q m then 1 else 0 := by
  rw [dos_default hc hp h]
  set b := Cli.linspace 0 (M / cf * (105 / 100)) 1001 with hb
  have hlen : b.length = 1001 := length_linspace _ _ _
  obtain ⟨y, h1, h2, h3, h4⟩ := C140_given_bins s cf recip sp l hp hn cf hc b (linspace_sorted _ (div_pos hM hc))
  rw [hlen] at h2 h3
  refine ⟨b, y, h1, hlen, h2, fun i hi => ?_, fun i hi => ?_, ?_⟩
  · rw [hb, linspace_getD _ _ (by omega)]
    unfold edge
    field_simp
  · rw [h3 i hi]
    refine congrArg (3 * ·) ?_
    exact total_congr l _ _ fun q _ m => if_congr (linspace_inBin M cf _ hc i hi) rfl rfl
  · rw [h4]
    refine congrArg (3 * ·) ?_
    refine total_congr l _ _ fun q hq m => if_congr ?_ rfl rfl
    rw [linspace_inRange M cf _ hc]
    have := h.2 q hq m
    constructor
    · exact fun h => h.1
    · exact fun h => ⟨h, by linarith⟩

/-- **C140**: for a crystal without imaginary frequencies on the sphere the area is 3. -/
theorem C140_stable {D : Type} (s : Source D) (cf recip : ℝ) (hc : 0 < cf) (sp : Sphere) (l : List (V3 ℝ))
    (hp : points s recip sp = .ok l) (hn : 0 < s.nAtoms) (M : ℝ) (h : Highest l s.freqs M) (hM : 0 < M)
    (h0 : ∀ q ∈ l, ∀ m, 0 ≤ s.freqs q m) :
    ∃ b y, dos s cf recip sp none = .ok (cf, b, y) ∧ area b y = 3 := by
  obtain ⟨b, y, h1, -, -, -, -, h2⟩ := C140_default_bins s cf recip hc sp l hp hn M h hM
  refine ⟨b, y, h1, ?_⟩
  have hl := points_ne_nil hp
  have hl' : (l.length : ℝ) ≠ 0 := by exact_mod_cast hl.ne'
  have hn' : (s.nAtoms : ℝ) ≠ 0 := by exact_mod_cast hn.ne'
  rw [total_congr l _ (fun _ _ => 1) fun q hq m => if_pos (h0 q hq m)] at h2
  have : total l (fun (_ : V3 ℝ) (_ : Fin (3 * s.nAtoms)) => 1) = l.length * (3 * s.nAtoms) := by
    unfold total
    simp
  rw [this] at h2
  exact mul_right_cancel₀ (mul_ne_zero hl' (mul_ne_zero (by norm_num) hn')) h2

/-- **C140**: one mode of imaginary frequency (a negative number) is enough to make the area smaller than 3. -/
theorem C140_unstable {D : Type} (s : Source D) (cf recip : ℝ) (hc : 0 < cf) (sp : Sphere) (l : List (V3 ℝ))
    (hp : points s recip sp = .ok l) (hn : 0 < s.nAtoms) (M : ℝ) (h : Highest l s.freqs M) (hM : 0 < M)
    (q : V3 ℝ) (hq : q ∈ l) (m : Fin (3 * s.nAtoms)) (h0 : s.freqs q m < 0) :
    ∃ b y, dos s cf recip sp none = .ok (cf, b, y) ∧ area b y < 3 := by
  obtain ⟨b, y, h1, -, -, -, -, h2⟩ := C140_default_bins s cf recip hc sp l hp hn M h hM
  refine ⟨b, y, h1, ?_⟩
  have hl := points_ne_nil hp
  have hl' : (0 : ℝ) < l.length := by exact_mod_cast hl
  have hn' : (0 : ℝ) < s.nAtoms := by exact_mod_cast hn
  have hlt : total l (fun q m => if 0 ≤ s.freqs q m then (1 : ℝ) else 0) <
      total l (fun (_ : V3 ℝ) (_ : Fin (3 * s.nAtoms)) => 1) := by
    unfold total
    obtain ⟨i, hi, rfl⟩ := List.getElem_of_mem hq
    rw [← sum_fin_list fun q => ∑ m, if 0 ≤ s.freqs q m then (1 : ℝ) else 0,
      ← sum_fin_list fun _ => ∑ _ : Fin (3 * s.nAtoms), (1 : ℝ)]
    apply Finset.sum_lt_sum
    · intro q _
      exact Finset.sum_le_sum fun m _ => by split <;> norm_num
    · refine ⟨⟨i, hi⟩, Finset.mem_univ _, ?_⟩
      apply Finset.sum_lt_sum
      · exact fun m _ => by split <;> norm_num
      · refine ⟨m, Finset.mem_univ _, ?_⟩
        rw [if_neg]
        · norm_num
        · exact not_le.2 h0
  have : total l (fun (_ : V3 ℝ) (_ : Fin (3 * s.nAtoms)) => 1) = l.length * (3 * s.nAtoms) := by
    unfold total
    simp
  rw [this] at hlt
  by_contra hcon
  push Not at hcon
  have := mul_le_mul_of_nonneg_right hcon (by positivity : (0 : ℝ) ≤ l.length * (3 * s.nAtoms))
  linarith


/-- **C140**: if the highest energy on the sphere is zero, all default edges are zero and the density of states is zero
everywhere although there are modes. -/
theorem C140_all_zero {D : Type} (s : Source D) (cf recip : ℝ) (hc : 0 < cf) (sp : Sphere) (l : List (V3 ℝ))
    (hp : points s recip sp = .ok l) (hn : 0 < s.nAtoms) (h : Highest l s.freqs 0) :
    dos s cf recip sp none = .ok (cf, List.replicate 1001 0, List.replicate 1000 0) := by
  rw [dos_default hc hp h]
  have hb : Cli.linspace (0 : ℝ) (0 / cf * (105 / 100)) 1001 = List.replicate 1001 0 := by
    apply List.ext_getElem
    · rw [length_linspace, List.length_replicate]
    · intro i hi _
      have := linspace_getD (0 / cf) i (lt_of_lt_of_eq hi (length_linspace _ _ _))
      rw [List.getD_eq_getElem _ _ hi] at this
      rw [this, List.getElem_replicate]
      simp [edge]
  rw [hb, dos_unfold hp _ cf (List.replicate 1001 0) rfl]
  have hs : (List.replicate 1001 (0 : ℝ)).Pairwise (· ≤ ·) := by
    rw [List.pairwise_replicate]
    exact Or.inr le_rfl
  rw [Dos.C21_dos_counts_modes_in_bin cf hc _ hs (by omega : 0 < 3 * s.nAtoms)]
  have : (List.range ((List.replicate 1001 (0 : ℝ)).length - 1)).map (fun i =>
      Dos.binTotal (List.replicate 1001 (0 : ℝ)) cf (fun (q : Fin l.length) (m : Fin (3 * s.nAtoms)) => s.freqs l[q] m)
        (fun q _ => Dos.defaultWeights l.length q * (3 / ((3 * s.nAtoms : Nat) : ℝ))) i /
        ((List.replicate 1001 (0 : ℝ)).getD (i + 1) 0 - (List.replicate 1001 (0 : ℝ)).getD i 0) /
        ∑ q, Dos.defaultWeights l.length q) = List.replicate 1000 0 := by
    rw [List.eq_replicate_iff]
    refine ⟨by rw [List.length_map, List.length_range, List.length_replicate], fun v hv => ?_⟩
    obtain ⟨i, hi, rfl⟩ := List.mem_map.1 hv
    have hz : ∀ k, (List.replicate 1001 (0 : ℝ)).getD k 0 = 0 := by
      intro k
      rw [List.getD, List.getElem?_replicate]
      split <;> rfl
    rw [hz, hz, sub_zero, div_zero, zero_div]
  rw [this]
  rfl

/-! ### Edges in descending order -/

theorem countP_gt_spec (bins : List ℝ) (hs : bins.Pairwise (· ≥ ·)) (x : ℝ) (j : Nat) (hj : j < bins.length) :
    x < bins.getD j 0 ↔ j < bins.countP (fun b => decide (x < b)) := by
  induction bins generalizing j with
  | nil => simp at hj
  | cons a l ih =>
    rw [List.pairwise_cons] at hs
    by_cases ha : x < a
    · rw [List.countP_cons_of_pos (by simpa using ha)]
      cases j with
      | zero => simp [ha]
      | succ j =>
        rw [List.getD_cons_succ, ih hs.2 j (by simpa using hj)]
        omega
    · have h0 : l.countP (fun b => decide (x < b)) = 0 := by
        rw [List.countP_eq_zero]
        intro b hb
        have := hs.1 b hb
        simp only [decide_eq_true_eq]
        exact fun h => ha (lt_of_lt_of_le h this)
      rw [List.countP_cons_of_neg (by simpa using ha), h0]
      simp only [Nat.not_lt_zero, iff_false]
      cases j with
      | zero => simpa using ha
      | succ j =>
        have hj' : j < l.length := by simpa using hj
        rw [List.getD_cons_succ, List.getD_eq_getElem _ _ hj']
        exact fun h => ha (lt_of_lt_of_le h (hs.1 _ (List.getElem_mem hj')))

/-- The histogram for edges in descending order. -/
theorem histogram_desc (bins : List ℝ) (hs : bins.Pairwise (· ≥ ·)) (hs' : ¬ bins.Pairwise (· ≤ ·)) {nq nm : Nat}
    (freqs : Fin nq → Fin nm → ℝ) (weights : Fin nq → ℝ) (mw : Fin nq → Fin nm → ℝ) :
    Dos.histogram bins freqs weights mw = .ok ((List.range (bins.length - 1)).map fun i =>
      (∑ q, ∑ m, if freqs q m < bins.getD i 0 ∧ bins.getD (i + 1) 0 ≤ freqs q m
        then weights q * mw q m else 0) / (bins.getD (i + 1) 0 - bins.getD i 0)) := by
  set idx : ℝ → Nat := fun x => bins.countP fun b => decide (x < b) with hidx
  have hm : (((List.finRange nq).flatMap fun q => (List.finRange nm).map fun m => (q, m)).mapM
      fun p => (do
        let i ← Dos.digitize bins (freqs p.1 p.2)
        return (i, weights p.1 * mw p.1 p.2 / (Dos.paddedWidths bins).getD i 1) :
          Except Err (Nat × ℝ))) =
      .ok (((List.finRange nq).flatMap fun q => (List.finRange nm).map fun m => (q, m)).map
        fun p => (idx (freqs p.1 p.2),
          weights p.1 * mw p.1 p.2 / (Dos.paddedWidths bins).getD (idx (freqs p.1 p.2)) 1)) := by
    apply mapM_ok_of_forall
    intro p _
    unfold Dos.digitize
    rw [if_neg hs', if_pos hs]
    rfl
  obtain ⟨r, h1, h2, h3⟩ := Dos.foldlM_addAt
    (((List.finRange nq).flatMap fun q => (List.finRange nm).map fun m => (q, m)).map
        fun p => (idx (freqs p.1 p.2),
          weights p.1 * mw p.1 p.2 / (Dos.paddedWidths bins).getD (idx (freqs p.1 p.2)) 1))
    (List.replicate (bins.length + 1) 0) (by
      intro p hp
      simp only [List.mem_map] at hp
      obtain ⟨p', _, rfl⟩ := hp
      have : idx (freqs p'.1 p'.2) ≤ bins.length := List.countP_le_length
      simpa using by omega)
  unfold Dos.histogram
  dsimp only
  rw [hm]
  simp only [bind, Except.bind, h1, pure, Except.pure]
  congr 1
  rw [List.length_replicate] at h2
  apply List.ext_getElem
  · simp [h2]
  intro i hi1 hi2
  have hi : i + 1 < bins.length := by simp at hi2; omega
  rw [← List.getD_eq_getElem _ 0 hi1, Dos.getD_trim _ _ (by omega), h3, List.getElem_map,
    List.getElem_range, List.map_map]
  have := Dos.sum_qm (nq := nq) (nm := nm) fun q m => if idx (freqs q m) = i + 1 then
    weights q * mw q m / (Dos.paddedWidths bins).getD (idx (freqs q m)) 1 else 0
  simp only [Function.comp_def] at this ⊢
  rw [this, List.getD_eq_getElem _ _ (by simp; omega), List.getElem_replicate, zero_add,
    Finset.sum_div]
  refine Finset.sum_congr rfl fun q _ => ?_
  rw [Finset.sum_div]
  refine Finset.sum_congr rfl fun m _ => ?_
  have : idx (freqs q m) = i + 1 ↔ freqs q m < bins.getD i 0 ∧ bins.getD (i + 1) 0 ≤ freqs q m := by
    rw [← not_lt (a := freqs q m) (b := bins.getD (i + 1) 0), countP_gt_spec bins hs _ i (by omega),
      countP_gt_spec bins hs _ (i + 1) hi]
    show idx _ = _ ↔ _ < idx _ ∧ ¬ _ < idx _
    omega
  by_cases hc : idx (freqs q m) = i + 1
  · rw [if_pos hc, if_pos (this.1 hc), hc, Dos.getD_paddedWidths _ _ _ hi]
  · rw [if_neg hc, if_neg fun h => hc (this.2 h), zero_div]

/-- **C140**: if all energies on the sphere are negative, the default edges descend and the density of states is
negative: no value is positive and at least one is less than zero. -/
theorem C140_all_negative {D : Type} (s : Source D) (cf recip : ℝ) (hc : 0 < cf) (sp : Sphere) (l : List (V3 ℝ))
    (hp : points s recip sp = .ok l) (hn : 0 < s.nAtoms) (M : ℝ) (h : Highest l s.freqs M) (hM : M < 0) :
    ∃ b y, dos s cf recip sp none = .ok (cf, b, y) ∧ b.Pairwise (· > ·) ∧ y.length = 1000 ∧
      (∀ v ∈ y, v ≤ 0) ∧ ∃ v ∈ y, v < 0 := by
  rw [dos_default hc hp h]
  set b := Cli.linspace 0 (M / cf * (105 / 100)) 1001 with hb
  have hlen : b.length = 1001 := length_linspace _ _ _
  have hMc : M / cf < 0 := div_neg_of_neg_of_pos hM hc
  have hlt : ∀ i j, i < j → j < 1001 → b.getD j 0 < b.getD i 0 := by
    intro i j hij hj
    rw [hb, linspace_getD _ j hj, linspace_getD _ i (by omega)]
    unfold edge
    have : (i : ℝ) < j := by exact_mod_cast hij
    have h : 105 / 100 * (M / cf) / 1000 < 0 := by linarith
    exact mul_lt_mul_of_neg_right this h
  have hgt : b.Pairwise (· > ·) := by
    rw [List.pairwise_iff_getElem]
    intro i j hi hj hij
    rw [← List.getD_eq_getElem _ 0, ← List.getD_eq_getElem _ 0]
    exact hlt i j hij (by omega)
  have hge : (b.map (· * cf)).Pairwise (· ≥ ·) := by
    rw [List.pairwise_map]
    exact hgt.imp fun h => mul_le_mul_of_nonneg_right (le_of_lt h) hc.le
  have hnot : ¬ (b.map (· * cf)).Pairwise (· ≤ ·) := by
    rw [List.pairwise_map]
    intro hcon
    have := List.pairwise_iff_getElem.1 hcon 0 1 (by omega) (by omega) (by omega)
    rw [← List.getD_eq_getElem _ 0, ← List.getD_eq_getElem _ 0] at this
    have h2 := hlt 0 1 (by omega) (by omega)
    have := le_of_mul_le_mul_right this hc
    linarith
  have hl := points_ne_nil hp
  have hl' : (0 : ℝ) < l.length := by exact_mod_cast hl
  have hn' : (0 : ℝ) < s.nAtoms := by exact_mod_cast hn
  have hy : Dos.calculateDos cf b (fun (q : Fin l.length) (m : Fin (3 * s.nAtoms)) => s.freqs l[q] m)
      (Dos.defaultWeights l.length) = .ok ((List.range 1000).map fun i =>
        (∑ q : Fin l.length, ∑ m, if s.freqs l[q] m < b.getD i 0 * cf ∧ b.getD (i + 1) 0 * cf ≤ s.freqs l[q] m
          then Dos.defaultWeights l.length q * (3 / ((3 * s.nAtoms : Nat) : ℝ)) else 0) /
          (b.getD (i + 1) 0 * cf - b.getD i 0 * cf) / 1 / (1 / cf)) := by
    rw [Dos.calculateDos_none cf b (by omega : 0 < 3 * s.nAtoms)]
    unfold Dos.calculateDos_
    simp only [bind, Except.bind, pure, Except.pure, histogram_desc _ hge hnot, Dos.normalise, sum_defaultWeights _ hl,
      List.map_map, List.length_map, hlen, Dos.getD_scale]
    rfl
  have hpos : ∀ q : Fin l.length, (0 : ℝ) < Dos.defaultWeights l.length q * (3 / ((3 * s.nAtoms : Nat) : ℝ)) := by
    intro q
    unfold Dos.defaultWeights
    push_cast
    exact mul_pos (div_pos one_pos hl') (div_pos (by norm_num) (mul_pos (by norm_num) hn'))
  have hnum : ∀ i, (0 : ℝ) ≤ ∑ q : Fin l.length, ∑ m, if s.freqs l[q] m < b.getD i 0 * cf ∧
      b.getD (i + 1) 0 * cf ≤ s.freqs l[q] m then Dos.defaultWeights l.length q * (3 / ((3 * s.nAtoms : Nat) : ℝ)) else 0 :=
    fun i => Finset.sum_nonneg fun q _ => Finset.sum_nonneg fun m _ => by
      split
      · exact (hpos q).le
      · exact le_rfl
  have hden : ∀ i < 1000, b.getD (i + 1) 0 * cf - b.getD i 0 * cf < 0 := by
    intro i hi
    have := mul_lt_mul_of_pos_right (hlt i (i + 1) (by omega) (by omega)) hc
    linarith
  rw [dos_unfold hp _ cf b rfl, hy]
  refine ⟨b, _, rfl, hgt, by rw [List.length_map, List.length_range], ?_, ?_⟩
  · intro v hv
    obtain ⟨i, hi, rfl⟩ := List.mem_map.1 hv
    have h1 := div_nonpos_of_nonneg_of_nonpos (hnum i) (hden i (List.mem_range.1 hi)).le
    rw [div_one]
    exact div_nonpos_of_nonpos_of_nonneg h1 (by positivity)
  · obtain ⟨⟨q, hq, m, hm⟩, -⟩ := h
    obtain ⟨k, hk, rfl⟩ := List.getElem_of_mem hq
    -- the bin that contains the highest energy
    have hex : ∃ i, i < 1000 ∧ M < b.getD i 0 * cf ∧ b.getD (i + 1) 0 * cf ≤ M := by
      by_contra hcon
      push Not at hcon
      have hall : ∀ i, i ≤ 1000 → M < b.getD i 0 * cf := by
        intro i
        induction i with
        | zero =>
          intro _
          rw [hb, linspace_getD _ _ (by norm_num)]
          simpa [edge] using hM
        | succ i ih =>
          intro hi
          exact hcon i (by omega) (ih (by omega))
      have := hall 1000 le_rfl
      rw [hb, linspace_getD _ _ (by norm_num)] at this
      have e : edge (M / cf) 1000 * cf = 105 / 100 * M := by
        unfold edge
        push_cast
        field_simp
      rw [e] at this
      linarith
    obtain ⟨i, hi, h1, h2⟩ := hex
    refine ⟨_, List.mem_map.2 ⟨i, List.mem_range.2 hi, rfl⟩, ?_⟩
    have hn2 : (0 : ℝ) < ∑ q : Fin l.length, ∑ m, if s.freqs l[q] m < b.getD i 0 * cf ∧
      b.getD (i + 1) 0 * cf ≤ s.freqs l[q] m then Dos.defaultWeights l.length q * (3 / ((3 * s.nAtoms : Nat) : ℝ)) else 0 := by
      apply Finset.sum_pos' (fun q _ => Finset.sum_nonneg fun m _ => by
        split
        · exact (hpos q).le
        · exact le_rfl)
      refine ⟨⟨k, hk⟩, Finset.mem_univ _, ?_⟩
      apply Finset.sum_pos' (fun m _ => by
        split
        · exact (hpos _).le
        · exact le_rfl)
      refine ⟨m, Finset.mem_univ _, ?_⟩
      have hm' : s.freqs l[(⟨k, hk⟩ : Fin l.length)] m = M := hm
      rw [if_pos (by rw [hm']; exact ⟨h1, h2⟩)]
      exact hpos _
    rw [div_one]
    exact div_neg_of_neg_of_pos (div_neg_of_pos_of_neg hn2 (hden i hi)) (by positivity)


/-! ### Partial densities of states -/

/-- **C140**: the partial densities of states have the same bins as the density of states and add up to it. -/
theorem C140_pdos {D : Type} (s : Source D) (cf recip : ℝ) (hc : 0 < cf) (sp : Sphere) (l : List (V3 ℝ))
    (hp : points s recip sp = .ok l) (hn : 0 < s.nAtoms) (M : ℝ) (h : Highest l s.freqs M) (hM : 0 < M)
    (he : ∀ q ∈ l, ∀ m, ∑ a, ∑ k, ((s.evecs q m a k).1 ^ 2 + (s.evecs q m a k).2 ^ 2) = 1) :
    ∃ b rows y, pdos s cf recip sp none none = .ok (cf, b, rows) ∧ dos s cf recip sp none = .ok (cf, b, y) ∧
      rows.length = s.nAtoms ∧ (∀ r ∈ rows, r.length = 1000) ∧
      ∀ i < 1000, (rows.map (·.getD i 0)).sum = y.getD i 0 := by
  set b := Cli.linspace 0 (M / cf * (105 / 100)) 1001 with hb
  have hlen : b.length = 1001 := length_linspace _ _ _
  have hs : b.Pairwise (· ≤ ·) := (linspace_sorted _ (div_pos hM hc)).imp le_of_lt
  obtain ⟨rows, y, h1, h2, h3, h4, h5, h6⟩ := Dos.C23_pdos_sums_to_dos cf hc b hs hn
    (fun (q : Fin l.length) (m : Fin (3 * s.nAtoms)) => s.freqs l[q] m) (Dos.defaultWeights l.length)
    (fun q m => s.evecs l[q] m) (fun q m => he _ (List.getElem_mem _) m) s.mass
  rw [hlen] at h5 h6
  have hbin : binsInUse cf none (fun (q : Fin l.length) (m : Fin (3 * s.nAtoms)) => s.freqs l[q] m) = .ok (cf, b) := by
    unfold binsInUse
    simp only [defaultBins_eq cf hc l s.freqs M h]
    rfl
  refine ⟨b, rows, y, ?_, ?_, h3, h5, h6⟩
  · unfold pdos
    rw [hp]
    simp only [bind, Except.bind] at hbin ⊢
    rw [hbin]
    dsimp only
    rw [h1]
    rfl
  · rw [dos_unfold hp none cf b hbin, h2]
    rfl

/-! ### Structure factors -/

theorem structureFactor_unfold {D : Type} {s : Source D} {kB sfConv cf recip conv dwSpacing : ℝ}
    {temperature : Option ℝ} {dw dw' : Option D} (hd : dwInUse s conv dwSpacing temperature dw = .ok dw')
    {sp : Sphere} {l : List (V3 ℝ)} (hp : points s recip sp = .ok l) (g : Option (ℝ × List ℝ)) (c : ℝ) (b : List ℝ)
    (hb : binsInUse cf g (fun (q : Fin l.length) (m : Fin (3 * s.nAtoms)) => s.freqs l[q] m) = .ok (c, b)) :
    structureFactor s kB sfConv cf recip conv dwSpacing temperature dw sp g =
      (Dos.calculate1dAverage Real.exp kB c sfConv b true (dw'.map s.dwTemperature) none
        (fun (q : Fin l.length) (m : Fin (3 * s.nAtoms)) => s.freqs l[q] m) (fun q m => s.sf dw' l[q] m)
        (Dos.defaultWeights l.length) none).map fun y => (c, b, y) := by
  unfold structureFactor
  rw [hd]
  simp only [bind, Except.bind] at hb ⊢
  rw [hp]
  dsimp only
  rw [hb]
  dsimp only
  cases Dos.calculate1dAverage Real.exp kB c sfConv b true (dw'.map s.dwTemperature) none
        (fun (q : Fin l.length) (m : Fin (3 * s.nAtoms)) => s.freqs l[q] m) (fun q m => s.sf dw' l[q] m)
        (Dos.defaultWeights l.length) none <;> rfl

/-- **C140**. The structure factor averaged over a sphere, for bins in any unit of energy: each bin holds the mean over
the q-points of the structure factors of the modes in it (energy loss) or opposite to it (energy gain), with the Bose
factor of the temperature of the Debye-Waller exponent in use, if there is one, and without any otherwise (for frequencies
that are not exactly zero, where the Bose factor is infinite). -/
theorem C140_structure_factor {D : Type} (s : Source D) (kB sfConv cf recip conv dwSpacing : ℝ)
    (temperature : Option ℝ) (dw dw' : Option D) (hd : dwInUse s conv dwSpacing temperature dw = .ok dw')
    (sp : Sphere) (l : List (V3 ℝ)) (hp : points s recip sp = .ok l) (c : ℝ) (hc : 0 < c) (b : List ℝ)
    (hs : b.Pairwise (· < ·)) (hk : 0 < kB) (hz : ∀ q ∈ l, ∀ m, s.freqs q m ≠ 0) :
    ∃ y, structureFactor s kB sfConv cf recip conv dwSpacing temperature dw sp (some (c, b)) = .ok (c, b, y) ∧
      y.length = b.length - 1 ∧
      ∀ i < b.length - 1, y.getD i 0 * (b.getD (i + 1) 0 - b.getD i 0) * l.length =
        sfConv * total l fun q m =>
          (if Dos.InBin b i (s.freqs q m / c) then loss kB (dw'.map s.dwTemperature) (s.freqs q m) * s.sf dw' q m else 0) +
          if Dos.InBin b i (-(s.freqs q m / c)) then gain kB (dw'.map s.dwTemperature) (s.freqs q m) * s.sf dw' q m
          else 0 := by
  have hl := points_ne_nil hp
  have hl' : (l.length : ℝ) ≠ 0 := by exact_mod_cast hl.ne'
  have hT : Dos.usedTemperature true (dw'.map s.dwTemperature) none = .ok (dw'.map s.dwTemperature) := by
    cases dw' <;> rfl
  obtain ⟨rows, r1, r2⟩ := Dos.C24_1d_average Real.exp kB c sfConv hc b hs true (dw'.map s.dwTemperature) none
    (fun (q : Fin l.length) (m : Fin (3 * s.nAtoms)) => s.freqs l[q] m) (fun q m => s.sf dw' l[q] m)
    (Dos.defaultWeights l.length) none _ hT fun t _ ht q m => Dos.exp_ne_one hk ht (hz _ (List.getElem_mem _) m)
  obtain ⟨rows', r1', -, r3⟩ := Dos.C24_sqw_bins Real.exp kB c sfConv hc b hs true (dw'.map s.dwTemperature) none
    (fun (q : Fin l.length) (m : Fin (3 * s.nAtoms)) => s.freqs l[q] m) (fun q m => s.sf dw' l[q] m) _ hT
    fun t _ ht q m => Dos.exp_ne_one hk ht (hz _ (List.getElem_mem _) m)
  rw [r1] at r1'
  obtain rfl := Except.ok.inj r1'
  obtain ⟨y, y1, y2, y3⟩ := (r2 _ (Or.inr ⟨rfl, rfl⟩)).2 (by rw [sum_defaultWeights _ hl]; exact one_ne_zero)
  refine ⟨y, ?_, y2, fun i hi => ?_⟩
  · rw [structureFactor_unfold hd hp _ c b rfl, y1]
    rfl
  · have h1 := y3 i hi
    rw [sum_defaultWeights _ hl, mul_one] at h1
    have h2 : ∀ q : Fin l.length, (rows.getD q.val []).getD i 0 * (b.getD (i + 1) 0 - b.getD i 0) =
        sfConv * ∑ m, ((if Dos.InBin b i (s.freqs l[q] m / c) then
          loss kB (dw'.map s.dwTemperature) (s.freqs l[q] m) * s.sf dw' l[q] m else 0) +
          if Dos.InBin b i (-(s.freqs l[q] m / c)) then
            gain kB (dw'.map s.dwTemperature) (s.freqs l[q] m) * s.sf dw' l[q] m else 0) := by
      intro q
      rw [(r3 q).2 i hi]
      congr 1
      cases dw'
      · simp only [Option.map_none, Dos.sqwBin, loss, gain, Option.elim_none, one_mul]
      · rfl
    rw [h1]
    unfold total
    rw [← sum_fin_list fun q => ∑ m, ((if Dos.InBin b i (s.freqs q m / c) then
          loss kB (dw'.map s.dwTemperature) (s.freqs q m) * s.sf dw' q m else 0) +
          if Dos.InBin b i (-(s.freqs q m / c)) then
            gain kB (dw'.map s.dwTemperature) (s.freqs q m) * s.sf dw' q m else 0), Finset.mul_sum, Finset.sum_mul,
      Finset.sum_mul]
    refine Finset.sum_congr rfl fun q _ => ?_
    rw [← h2 q]
    unfold Dos.defaultWeights
    field_simp

/-- **C140**. With default bins, on a sphere where all energies are positive, the whole spectrum adds up to the mean over the q-points
of the sum of the structure factors times `1 + n`, where `n` belongs to the temperature in use (without one, of the
structure factors alone): the gain side is left out and nothing else is. -/
theorem C140_structure_factor_total {D : Type} (s : Source D) (kB sfConv cf recip conv dwSpacing : ℝ) (hc : 0 < cf)
    (temperature : Option ℝ) (dw dw' : Option D) (hd : dwInUse s conv dwSpacing temperature dw = .ok dw')
    (sp : Sphere) (l : List (V3 ℝ)) (hp : points s recip sp = .ok l) (M : ℝ) (h : Highest l s.freqs M)
    (h0 : ∀ q ∈ l, ∀ m, 0 < s.freqs q m) (hk : 0 < kB) :
    ∃ b y, structureFactor s kB sfConv cf recip conv dwSpacing temperature dw sp none = .ok (cf, b, y) ∧
      b.length = 1001 ∧ y.length = 1000 ∧ (∀ i ≤ 1000, b.getD i 0 * cf = edge M i) ∧
      area b y * l.length =
        sfConv * total l fun q m => loss kB (dw'.map s.dwTemperature) (s.freqs q m) * s.sf dw' q m := by
  set b := Cli.linspace 0 (M / cf * (105 / 100)) 1001 with hb
  have hlen : b.length = 1001 := length_linspace _ _ _
  have hM : 0 < M := by
    obtain ⟨⟨q, hq, m, hm⟩, -⟩ := h
    rw [← hm]
    exact h0 q hq m
  have hbin : binsInUse cf none (fun (q : Fin l.length) (m : Fin (3 * s.nAtoms)) => s.freqs l[q] m) = .ok (cf, b) := by
    unfold binsInUse
    simp only [defaultBins_eq cf hc l s.freqs M h]
    rfl
  have hs := linspace_sorted _ (div_pos hM hc)
  rw [← hb] at hs
  obtain ⟨y, y1, y2, y3⟩ := C140_structure_factor s kB sfConv cf recip conv dwSpacing temperature dw dw' hd sp l hp cf hc
    b hs hk fun q hq m => (h0 q hq m).ne'
  rw [structureFactor_unfold hd hp _ cf b rfl] at y1
  rw [structureFactor_unfold hd hp none cf b hbin]
  refine ⟨b, y, y1, hlen, y2.trans (by omega), fun i hi => ?_, ?_⟩
  · rw [hb, linspace_getD _ _ (by omega)]
    unfold edge
    field_simp
  · unfold area
    rw [Finset.sum_mul, Finset.sum_congr rfl fun i hi => y3 i (Finset.mem_range.1 hi), ← Finset.mul_sum]
    refine congrArg (sfConv * ·) ?_
    unfold total
    rw [← sum_fin_list fun q => ∑ m, loss kB (dw'.map s.dwTemperature) (s.freqs q m) * s.sf dw' q m]
    rw [Finset.sum_congr rfl fun i _ => (sum_fin_list (l := l) fun q => ∑ m, ((if Dos.InBin b i (s.freqs q m / cf) then
          loss kB (dw'.map s.dwTemperature) (s.freqs q m) * s.sf dw' q m else 0) +
          if Dos.InBin b i (-(s.freqs q m / cf)) then
            gain kB (dw'.map s.dwTemperature) (s.freqs q m) * s.sf dw' q m else 0)).symm, Finset.sum_comm]
    refine Finset.sum_congr rfl fun q _ => ?_
    rw [Finset.sum_comm]
    refine Finset.sum_congr rfl fun m _ => ?_
    have hq := h0 _ (List.getElem_mem q.2) m
    have hqM := h.2 _ (List.getElem_mem q.2) m
    rw [Finset.sum_add_distrib, Dos.sum_inBin b (hs.imp le_of_lt), Dos.sum_inBin b (hs.imp le_of_lt), if_pos, if_neg,
      add_zero]
    · rw [← neg_div, hb, linspace_inRange M cf _ hc]
      intro hcon
      have := hcon.1
      simp only [Fin.getElem_fin] at this
      linarith
    · rw [hb, linspace_inRange M cf _ hc]
      simp only [Fin.getElem_fin]
      constructor <;> linarith

/-! ### Temperatures -/

/-- **C140**. A temperature alone stands for the Debye-Waller exponent of that temperature on the Monkhorst-Pack grid whose
divisions are the smallest that are not longer than `dw_spacing`. -/
theorem C140_temperature_alone {D : Type} (s : Source D) (kB sfConv cf recip conv dwSpacing : ℝ) (hconv : 0 < conv)
    (hsp : 0 < dwSpacing) (hv : cellVolume s.cell ≠ 0) (t : ℝ) (sp : Sphere) (g : Option (ℝ × List ℝ)) :
    ∃ n₁ n₂ n₃ : Nat, ∃ qpts, SmallestDivision (conv * norm3 (reciprocalCell (2 * Real.pi) s.cell).a) dwSpacing n₁ ∧
      SmallestDivision (conv * norm3 (reciprocalCell (2 * Real.pi) s.cell).b) dwSpacing n₂ ∧
      SmallestDivision (conv * norm3 (reciprocalCell (2 * Real.pi) s.cell).c) dwSpacing n₃ ∧
      mpGrid ℝ n₁ n₂ n₃ = .ok qpts ∧ qpts.length = n₁ * n₂ * n₃ ∧
      (∀ d, s.debyeWaller qpts t = .ok d →
        structureFactor s kB sfConv cf recip conv dwSpacing (some t) none sp g =
          structureFactor s kB sfConv cf recip conv dwSpacing none (some d) sp g) ∧
      ∀ e, s.debyeWaller qpts t = .error e →
        structureFactor s kB sfConv cf recip conv dwSpacing (some t) none sp g = .error e := by
  obtain ⟨h1, h2, h3⟩ := C32_grid_spec (2 * Real.pi) conv dwSpacing s.cell Real.two_pi_pos hconv hsp hv
  set G := mpGridSpec (2 * Real.pi) conv dwSpacing s.cell with hG
  obtain ⟨qpts, hq, hlen, -⟩ := C31_grid_complete (K := ℝ) G.1.toNat G.2.1.toNat G.2.2.toNat
  have e : ∀ z : ℤ, 0 < z → ((z.toNat : ℕ) : ℤ) = z := fun z hz => Int.toNat_of_nonneg hz.le
  have hdw : dwInUse s conv dwSpacing (some t) none = (s.debyeWaller qpts t).map some := by
    unfold dwInUse
    simp only [← hG, hq, bind, Except.bind]
    cases s.debyeWaller qpts t <;> rfl
  refine ⟨G.1.toNat, G.2.1.toNat, G.2.2.toNat, qpts, ?_, ?_, ?_, hq, hlen, fun d hd => ?_, fun err hd => ?_⟩
  · rw [e _ h1.1]; exact h1
  · rw [e _ h2.1]; exact h2
  · rw [e _ h3.1]; exact h3
  · unfold structureFactor
    rw [hdw, hd]
    rfl
  · unfold structureFactor
    rw [hdw, hd]
    rfl

/-- **C140**. A temperature and a Debye-Waller exponent: if the temperature is that of the exponent (within the relative
tolerance 1e-5 of `np.isclose`) it makes no difference, otherwise it is refused. -/
theorem C140_temperature_and_dw {D : Type} (s : Source D) (kB sfConv cf recip conv dwSpacing t : ℝ) (d : D) (sp : Sphere)
    (g : Option (ℝ × List ℝ)) :
    structureFactor s kB sfConv cf recip conv dwSpacing (some t) (some d) sp g =
      if |s.dwTemperature d - t| ≤ 1 / 10 ^ 8 + |t| / 10 ^ 5 then
        structureFactor s kB sfConv cf recip conv dwSpacing none (some d) sp g
      else .error .valueError := by
  have : (|s.dwTemperature d - t| ≤ 1 / 10 ^ 8 + |t| / 10 ^ 5) ↔ closeTemp (s.dwTemperature d) t = true := by
    unfold closeTemp
    rw [decide_eq_true_iff, div_mul_eq_mul_div, one_mul]
  by_cases h : |s.dwTemperature d - t| ≤ 1 / 10 ^ 8 + |t| / 10 ^ 5
  · rw [if_pos h]
    have e : dwInUse s conv dwSpacing (some t) (some d) = .ok (some d) := if_pos (this.1 h)
    unfold structureFactor
    rw [e]
    rfl
  · rw [if_neg h]
    have e : dwInUse s conv dwSpacing (some t) (some d) = .error .valueError := if_neg fun hc => h (this.2 hc)
    unfold structureFactor
    rw [e]
    rfl

/-- **C140**: since the temperature is 273 K unless it is given, a Debye-Waller exponent of another temperature (here
300 K) cannot be given alone; the temperature must be given too, as 300 K or `None`. -/
theorem C140_dw_alone {D : Type} (s : Source D) (kB sfConv cf recip conv dwSpacing : ℝ) (d : D) (sp : Sphere)
    (g : Option (ℝ × List ℝ)) (h : s.dwTemperature d = 300) :
    structureFactor s kB sfConv cf recip conv dwSpacing (some 273) (some d) sp g = .error .valueError ∧
    structureFactor s kB sfConv cf recip conv dwSpacing (some 300) (some d) sp g =
      structureFactor s kB sfConv cf recip conv dwSpacing none (some d) sp g := by
  rw [C140_temperature_and_dw, C140_temperature_and_dw, h, if_neg, if_pos]
  · exact ⟨rfl, rfl⟩
  · norm_num
  · norm_num [abs_of_pos]


/-! ## Examples -/

namespace Ex

/-- One atom in a triclinic cell; energies 1, 2, 3 times `1 + x²` for the fractional coordinate `x` of the q-point,
shifted by `e`; the Debye-Waller exponent is its temperature. -/
noncomputable def source (e : ℝ) : Source ℝ where
  cell := ⟨⟨3, 0, 0⟩, ⟨1, 2, 0⟩, ⟨1/2, 1/3, 5⟩⟩
  nAtoms := 1
  mass := fun _ => 1
  freqs := fun q m => (m.val + 1 : ℝ) * (1 + q.x ^ 2) + e
  evecs := fun _ m _ k => (if k.val = m.val then 1 else 0, 0)
  sf := fun d q m => (d.getD 0 + m.val) * (1 + q.y ^ 2)
  debyeWaller := fun _ t => .ok t
  dwTemperature := id

/-- Fifty points of the golden spiral. -/
noncomputable def sphere : Sphere := ⟨50, .golden, none, fun _ => none, fun _ => (0, 0), 3 / 2⟩

theorem points_ok (e : ℝ) : ∃ l, points (source e) 1 sphere = .ok l ∧ l.length = 50 := by
  obtain ⟨l, h1, h2, -⟩ := Powder.C76_sphere_modulus 50 .golden none (fun _ => none) (fun _ => (0, 0)) (3/2) 1
    (source e).cell (by simp only [source, cellVolume, dot, cross]; norm_num)
    (by simp [Sampling.RandomJitter]) (by decide) (by norm_num) (by simp) (by simp)
  refine ⟨l, ?_, h2⟩
  unfold points sphere
  dsimp only
  rw [h1]
  simp only [bind, Except.bind]
  rw [if_neg]
  intro h
  rw [List.isEmpty_iff.1 h] at h2
  exact absurd h2 (by decide)

theorem highest (e : ℝ) (l : List (V3 ℝ)) (hl : l.length = 50) : ∃ M, 3 + e ≤ M ∧ Highest l (source e).freqs M := by
  set L := l.flatMap fun q => (List.finRange 3).map fun m : Fin 3 => (source e).freqs q m with hL
  have hne : l ≠ [] := by rintro rfl; exact absurd hl (by decide)
  obtain ⟨q, hq⟩ := List.exists_mem_of_ne_nil l hne
  have hin : ∀ q ∈ l, ∀ m : Fin 3, (source e).freqs q m ∈ L := by
    intro q hq m
    rw [hL]
    simp only [List.mem_flatMap, List.mem_map, List.mem_finRange, true_and]
    exact ⟨q, hq, m, rfl⟩
  obtain ⟨M, -, h2, h3⟩ := Cli.npMax_spec L (List.ne_nil_of_mem (hin q hq 0))
  refine ⟨M, ?_, ?_, fun q hq m => h3 _ (hin q hq m)⟩
  · have h := h3 _ (hin q hq 2)
    have e2 : (source e).freqs q (2 : Fin 3) = 3 * (1 + q.x ^ 2) + e := by
      simp only [source]
      norm_num
    rw [e2] at h
    have := sq_nonneg q.x
    linarith
  · rw [hL] at h2
    simp only [List.mem_flatMap, List.mem_map, List.mem_finRange, true_and] at h2
    obtain ⟨q, hq, m, hm⟩ := h2
    exact ⟨q, hq, m, hm⟩

/-- A stable crystal: the hypotheses of `C140_stable`, `C140_pdos` and `C140_structure_factor_total` are met. -/
example : (∃ b y, dos (source 0) 2 1 sphere none = .ok (2, b, y) ∧ area b y = 3) ∧
    (∃ b rows, pdos (source 0) 2 1 sphere none none = .ok (2, b, rows) ∧ rows.length = 1) ∧
    ∃ b y, structureFactor (source 0) 1 1 2 1 1 (1 / 40) (some 273) none sphere none = .ok (2, b, y) ∧ y.length = 1000 := by
  obtain ⟨l, h1, h2⟩ := points_ok 0
  obtain ⟨M, h3, h4⟩ := highest 0 l h2
  have hpos : ∀ q ∈ l, ∀ m, 0 < (source 0).freqs q m := by
    intro q _ m
    simp only [source, add_zero]
    positivity
  refine ⟨C140_stable (source 0) 2 1 (by norm_num) sphere l h1 Nat.one_pos M h4 (by linarith)
    fun q hq m => (hpos q hq m).le, ?_, ?_⟩
  · obtain ⟨b, rows, y, p1, -, p2, -⟩ := C140_pdos (source 0) 2 1 (by norm_num) sphere l h1 Nat.one_pos M h4 (by linarith)
      (by
        intro q _ m
        show ∑ a : Fin 1, ∑ k : Fin 3, ((if k.val = m.val then (1 : ℝ) else 0) ^ 2 + (0 : ℝ) ^ 2) = 1
        rw [Fin.sum_univ_one, Fin.sum_univ_three]
        have hm : m.val < 3 := m.2
        rcases (by omega : m.val = 0 ∨ m.val = 1 ∨ m.val = 2) with h | h | h <;> simp [h])
    exact ⟨b, rows, p1, p2⟩
  · have hd : ∃ d, dwInUse (source 0) 1 (1 / 40) (some 273) none = .ok d := by
      unfold dwInUse
      obtain ⟨g, hg, -⟩ := C31_grid_complete (K := ℝ) (mpGridSpec (2 * Real.pi) 1 (1 / 40) (source 0).cell).1.toNat
        (mpGridSpec (2 * Real.pi) 1 (1 / 40) (source 0).cell).2.1.toNat
        (mpGridSpec (2 * Real.pi) 1 (1 / 40) (source 0).cell).2.2.toNat
      simp only [hg, bind, Except.bind]
      exact ⟨_, rfl⟩
    obtain ⟨d, hd⟩ := hd
    obtain ⟨b, y, p1, -, p2, -⟩ := C140_structure_factor_total (source 0) 1 1 2 1 1 (1 / 40) (by norm_num) (some 273) none d
      hd sphere l h1 M h4 hpos one_pos
    exact ⟨b, y, p1, p2⟩

/-- The same crystal with the same energies `v` at every q-point. -/
noncomputable def flat (v : Fin 3 → ℝ) : Source ℝ := { source 0 with freqs := fun _ m => v m }

/-- Energies -1, -2 and -3 (`C140_all_negative`), 0, 0 and -1 (`C140_all_zero`), and 3, -1 and 2 (`C140_unstable`). -/
example : (∃ b y, dos (flat ![-1, -2, -3]) 2 1 sphere none = .ok (2, b, y) ∧ ∃ v ∈ y, v < 0) ∧
    dos (flat ![0, 0, -1]) 2 1 sphere none = .ok (2, List.replicate 1001 0, List.replicate 1000 0) ∧
    ∃ b y, dos (flat ![3, -1, 2]) 2 1 sphere none = .ok (2, b, y) ∧ area b y < 3 := by
  obtain ⟨l, h1, h2⟩ := points_ok 0
  have hne : l ≠ [] := by rintro rfl; exact absurd h2 (by decide)
  obtain ⟨q, hq⟩ := List.exists_mem_of_ne_nil l hne
  have hp : ∀ v, points (flat v) 1 sphere = .ok l := fun v => h1
  have hh : ∀ (v : Fin 3 → ℝ) (i : Fin 3), (∀ j, v j ≤ v i) → Highest l (flat v).freqs (v i) :=
    fun v i h => ⟨⟨q, hq, i, rfl⟩, fun _ _ j => h j⟩
  refine ⟨?_, ?_, ?_⟩
  · obtain ⟨b, y, p1, -, -, -, p2⟩ := C140_all_negative (flat ![-1, -2, -3]) 2 1 (by norm_num) sphere l (hp _) Nat.one_pos _
      (hh ![-1, -2, -3] 0 (by intro j; fin_cases j <;> norm_num)) (by norm_num)
    exact ⟨b, y, p1, p2⟩
  · exact C140_all_zero (flat ![0, 0, -1]) 2 1 (by norm_num) sphere l (hp _) Nat.one_pos
      (hh ![0, 0, -1] 0 (by intro j; fin_cases j <;> norm_num))
  · exact C140_unstable (flat ![3, -1, 2]) 2 1 (by norm_num) sphere l (hp _) Nat.one_pos _
      (hh ![3, -1, 2] 0 (by intro j; fin_cases j <;> norm_num)) (by norm_num) q hq (1 : Fin 3) (by
        show (![3, -1, 2] : Fin 3 → ℝ) 1 < 0
        norm_num)

end Ex

end Euphonic.PowderSample
