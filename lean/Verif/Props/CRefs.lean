import Verif.Model.CRefs
import Mathlib.Tactic.SplitIfs

/-!
# C122: calls of the C extension keep no references and report what is missing
-/

set_option autoImplicit false

namespace Euphonic.CRefs

/-- The change of the reference count of an object by a call. -/
def net (x : String) (ev : List Ev) : Int := (ev.count (.inc x) : Int) - (ev.count (.dec x) : Int)

/-- Everything that is needed is there and has the right type. -/
structure Complete (c : Call) : Prop where
  parsed : c.parsed = true
  loaded : c.loaded = true
  attrs : ∀ n ∈ ["crystal", "_n_sc_images", "_sc_image_i", "cell_origins"], n ∈ c.attrs
  nAtoms : "n_atoms" ∈ c.crystal
  nAtomsInt : c.nAtomsInt = true
  atomR : "atom_r" ∈ c.crystal
  dipole : c.dipole = true → (∀ n ∈ ["_dipole_init_data", "_born", "_dielectric"], n ∈ c.attrs) ∧ c.lambdaFloat = true ∧
    ∀ k ∈ ["lambda", "H_ab", "cells", "gvec_phases", "gvecs_cart", "dipole_q0"], k ∈ c.dict

theorem attrsFrom_true {h ns : List String} (hs : ∀ n ∈ ns, n ∈ h) : attrsFrom h ns = (true, ns.map .inc) := by
  induction ns with
  | nil => rfl
  | cons n ns ih =>
    have := ih fun m hm => hs m (List.mem_cons_of_mem _ hm)
    simp [attrsFrom, hs n (by simp), this]

theorem attrsFrom_fst {h ns : List String} (ht : (attrsFrom h ns).1 = true) : ∀ n ∈ ns, n ∈ h := by
  induction ns with
  | nil => simp
  | cons n ns ih =>
    simp only [attrsFrom] at ht
    split at ht
    · rename_i hc
      intro m hm
      rcases List.mem_cons.1 hm with rfl | hm
      · simpa using hc
      · exact ih ht m hm
    · cases ht

theorem fromDipole_complete {c : Call} (h : (fromDipole c).1 = .returns) :
    (∀ n ∈ ["_dipole_init_data", "_born", "_dielectric"], n ∈ c.attrs) ∧ c.lambdaFloat = true ∧
    (∀ k ∈ ["lambda", "H_ab", "cells", "gvec_phases", "gvecs_cart", "dipole_q0"], k ∈ c.dict) ∧
    (fromDipole c).2 = [.inc "_dipole_init_data", .inc "_born", .inc "_dielectric"] := by
  by_cases h1 : (attrsFrom c.attrs ["_dipole_init_data"]).1 = true
  · by_cases h2 : (attrsFrom c.attrs ["_born", "_dielectric"]).1 = true
    · have m1 := attrsFrom_fst h1
      have m2 := attrsFrom_fst h2
      have e1 := attrsFrom_true m1
      have e2 := attrsFrom_true m2
      have hall : ∀ n ∈ ["_dipole_init_data", "_born", "_dielectric"], n ∈ c.attrs := by
        intro n hn
        rcases List.mem_cons.1 hn with rfl | hn
        · exact m1 _ (by simp)
        · exact m2 n hn
      simp only [fromDipole, e1, e2] at h ⊢
      split_ifs at h ⊢ with h3 h4 h5
      refine ⟨hall, by simpa using h4, ?_, rfl⟩
      intro k hk
      rcases List.mem_cons.1 hk with rfl | hk
      · simpa using h3
      · simpa using List.all_eq_true.1 h5 k hk
    · rw [Bool.not_eq_true] at h2
      simp only [fromDipole] at h
      split at h
      · cases h
      · split at h
        · cases h
        · rename_i he
          rw [he] at h2; cases h2
  · rw [Bool.not_eq_true] at h1
    simp only [fromDipole] at h
    split at h
    · cases h
    · rename_i he
      rw [he] at h1; cases h1

theorem fromDipole_of {c : Call} (h1 : ∀ n ∈ ["_dipole_init_data", "_born", "_dielectric"], n ∈ c.attrs) (h2 : c.lambdaFloat = true)
    (h3 : ∀ k ∈ ["lambda", "H_ab", "cells", "gvec_phases", "gvecs_cart", "dipole_q0"], k ∈ c.dict) :
    fromDipole c = (.returns, [.inc "_dipole_init_data", .inc "_born", .inc "_dielectric"]) := by
  have e1 := attrsFrom_true (h := c.attrs) (ns := ["_dipole_init_data"]) fun n hn => h1 n (by simp at hn; simp [hn])
  have e2 := attrsFrom_true (h := c.attrs) (ns := ["_born", "_dielectric"]) fun n hn => h1 n (List.mem_cons_of_mem _ hn)
  have h4 : dictKeys.all c.dict.contains = true := by
    rw [List.all_eq_true]
    intro k hk
    simpa using h3 k (List.mem_cons_of_mem _ hk)
  have h5 : "lambda" ∈ c.dict := h3 _ (by simp)
  simp [fromDipole, e1, e2, h2, h4, h5]

theorem fromCrystal_returns {c : Call} : (fromCrystal c).1 = .returns ↔
    "n_atoms" ∈ c.crystal ∧ c.nAtomsInt = true ∧ "atom_r" ∈ c.crystal := by
  unfold fromCrystal
  split_ifs <;> simp_all

/-- What happens when nothing is missing. -/
theorem calculate_complete {c : Call} (h : Complete c) : calculate c = (.returns,
    [.inc "crystal", .inc "_n_sc_images", .inc "_sc_image_i", .inc "cell_origins"] ++
      (if c.dipole then [.inc "_dipole_init_data", .inc "_born", .inc "_dielectric"] else []) ++
      [.inc "n_atoms", .inc "atom_r"] ++ release c) := by
  have e1 := attrsFrom_true h.attrs
  have e3 : fromCrystal c = (.returns, [.inc "n_atoms", .inc "atom_r"]) := by
    simp [fromCrystal, h.nAtoms, h.nAtomsInt, h.atomR]
  cases hd : c.dipole with
  | false => simp [calculate, dipolePart, h.parsed, h.loaded, e1, hd, e3]
  | true =>
    obtain ⟨a, b, d⟩ := h.dipole hd
    simp [calculate, dipolePart, h.parsed, h.loaded, e1, hd, e3, fromDipole_of a b d]

/-- **C122** The call runs to its end if and only if everything needed is there and has the right type. -/
theorem C122_returns_iff (c : Call) : (calculate c).1 = .returns ↔ Complete c := by
  refine ⟨fun h => ?_, fun h => by rw [calculate_complete h]⟩
  unfold calculate at h
  split_ifs at h with h1 h2
  simp only [Bool.not_eq_true', Bool.not_eq_false] at h1 h2
  split at h
  · cases h
  · rename_i ev he
    have m := attrsFrom_fst (by rw [he])
    split at h
    · rename_i ev' hd
      split at h
      · rename_i ev'' hc
        obtain ⟨c1, c2, c3⟩ := fromCrystal_returns.1 (by rw [hc])
        refine ⟨h1, h2, m, c1, c2, c3, fun hdip => ?_⟩
        rw [dipolePart, if_pos hdip] at hd
        obtain ⟨d1, d2, d3, _⟩ := fromDipole_complete (by rw [hd])
        exact ⟨d1, d2, d3⟩
      · rename_i hne _
        exact (hne h).elim
    · rename_i hne _
      exact (hne h).elim

/-- **C122** A call that runs to its end leaves all reference counts as they were, except that of the number of atoms.
*Missing:* that one, see `C122_n_atoms_leaked`, and failing calls, see `C122_failure_leaks`. -/
theorem C122_references_partial (c : Call) (h : (calculate c).1 = .returns) (x : String) (hx : x ≠ "n_atoms") :
    net x (calculate c).2 = 0 := by
  rw [calculate_complete ((C122_returns_iff c).1 h)]
  cases hd : c.dipole <;>
    simp [net, release, hd, List.count_cons, hx.symm] <;> omega

/-- **C122** *Violation:* every call keeps one reference to the number of atoms. -/
theorem C122_n_atoms_leaked (c : Call) (h : (calculate c).1 = .returns) : net "n_atoms" (calculate c).2 = 1 := by
  rw [calculate_complete ((C122_returns_iff c).1 h)]
  cases hd : c.dipole <;> simp [net, release, hd]

/-- **C122** *Violation:* a call that fails because of a missing attribute keeps references to what it has read before. -/
theorem C122_failure_leaks (c : Call) (hp : c.parsed = true) (hl : c.loaded = true) (h1 : "crystal" ∈ c.attrs)
    (h2 : "_n_sc_images" ∉ c.attrs) : (calculate c).1 = .raises .runtimeError ∧ net "crystal" (calculate c).2 = 1 := by
  have e : attrsFrom c.attrs ["crystal", "_n_sc_images", "_sc_image_i", "cell_origins"] = (false, [.inc "crystal"]) := by
    simp [attrsFrom, h1, h2]
  simp [calculate, hp, hl, e, net]

/-- **C122** Something missing is reported with an error, unless it is the number of atoms or, for dipole corrections, the
Ewald parameter: then the behaviour is undefined. -/
theorem C122_missing (c : Call) (hc : ¬ Complete c) :
    (∃ e, (calculate c).1 = .raises e) ∨ ((calculate c).1 = .undefined ∧
      ("n_atoms" ∉ c.crystal ∨ (c.dipole = true ∧ "lambda" ∉ c.dict))) := by
  rw [← C122_returns_iff] at hc
  unfold calculate at hc ⊢
  by_cases h1 : (!c.parsed) = true
  · rw [if_pos h1]; exact .inl ⟨_, rfl⟩
  by_cases h2 : (!c.loaded) = true
  · rw [if_neg h1, if_pos h2]; exact .inl ⟨_, rfl⟩
  rw [if_neg h1, if_neg h2] at hc ⊢
  split at hc
  · exact .inl ⟨_, rfl⟩
  · generalize hdp : dipolePart c = dp at hc ⊢
    obtain ⟨o, ev'⟩ := dp
    cases o with
    | raises e => exact .inl ⟨e, rfl⟩
    | undefined =>
      refine .inr ⟨rfl, .inr ?_⟩
      unfold dipolePart at hdp
      split at hdp
      · rename_i hdip
        refine ⟨hdip, fun hn => ?_⟩
        have hl : (!c.dict.contains "lambda") = false := by simpa using hn
        unfold fromDipole at hdp
        rw [hl] at hdp
        split at hdp
        · cases hdp
        · split at hdp
          · cases hdp
          · split_ifs at hdp
            all_goals simp_all
      · cases hdp
    | returns =>
      generalize hcr : fromCrystal c = cr at hc ⊢
      obtain ⟨o, ev''⟩ := cr
      cases o with
      | raises e => exact .inl ⟨e, rfl⟩
      | returns => exact absurd rfl hc
      | undefined =>
        refine .inr ⟨rfl, .inl fun hn => ?_⟩
        have hl : (!c.crystal.contains "n_atoms") = false := by simpa using hn
        unfold fromCrystal at hcr
        rw [hl] at hcr
        split_ifs at hcr
        all_goals simp_all

/-- A call with dipole corrections. -/
def exampleCall : Call := ⟨true, true, true,
  ["crystal", "_n_sc_images", "_sc_image_i", "cell_origins", "_born", "_dielectric", "_dipole_init_data", "sc_matrix"],
  ["n_atoms", "atom_r"], true, ["dipole_parameter", "lambda", "H_ab", "cells", "gvec_phases", "gvecs_cart", "dipole_q0"], true⟩

example : (calculate exampleCall).1 = .returns ∧ net "_born" (calculate exampleCall).2 = 0 ∧ net "n_atoms" (calculate exampleCall).2 = 1 := by
  have h : (calculate exampleCall).1 = .returns := by decide
  exact ⟨h, C122_references_partial _ h _ (by decide), C122_n_atoms_leaked _ h⟩

example : (calculate { exampleCall with attrs := ["crystal"] }).1 = .raises .runtimeError ∧
    net "crystal" (calculate { exampleCall with attrs := ["crystal"] }).2 = 1 :=
  C122_failure_leaks _ rfl rfl (by decide) (by decide)

example : (calculate { exampleCall with crystal := [] }).1 = .undefined := by decide

end Euphonic.CRefs
