import Verif.Props.ConvertFc

/-! # `convertFcPhases` moves blocks without looking at them -/

set_option autoImplicit false
set_option linter.unusedSectionVars false

namespace Euphonic.Supercell

open Euphonic.Lattice

variable {K : Type} [Field K] [LinearOrder K] [IsStrictOrderedRing K] [FloorRing K] {B B' : Type} {nu ns : Nat}

/-- The same function applied to every block. -/
def ScOut.mapBlocks {nc : Nat} (f : B → B') (s : ScOut B nu nc) : ScOut B' nu nc := ⟨s.cells, fun c i j => f (s.fc c i j)⟩

theorem assignAll_map {ι V V' : Type} [DecidableEq ι] (f : V → V') (init : ι → V) (l : List (ι × V)) :
    assignAll (fun i => f (init i)) (l.map fun p => (p.1, f p.2)) = fun i => f (assignAll init l i) := by
  induction l generalizing init with
  | nil => rfl
  | cons p l ih =>
    have h := ih (Function.update init p.1 p.2)
    unfold assignAll at h ⊢
    rw [List.map_cons, List.foldl_cons, List.foldl_cons, ← h]
    congr 1
    funext i
    dsimp only
    by_cases hi : i = p.1
    · subst hi; rw [Function.update_self, Function.update_self]
    · rw [Function.update_of_ne hi, Function.update_of_ne hi]

theorem mapM_except_map {α β β' : Type} (h : β → β') (g : α → Except Err β) (l : List α) :
    l.mapM (fun a => (g a).map h) = (l.mapM g).map (List.map h) := by
  induction l with
  | nil => rfl
  | cons a l ih =>
    rw [List.mapM_cons, List.mapM_cons, ih]
    cases g a with
    | error e => rfl
    | ok b =>
      cases l.mapM g with
      | error e => rfl
      | ok bs => rfl

theorem finMapM_of_error {n : Nat} {β : Type} (g : Fin n → Except Err β) (e : Err)
    (h : (List.finRange n).mapM g = .error e) : finMapM g = .error e := by
  unfold finMapM
  split
  · rename_i e' he
    rw [he] at h
    cases h
    rfl
  · rename_i l hl
    rw [hl] at h
    cases h

theorem finMapM_of_ok {n : Nat} {β : Type} (g : Fin n → Except Err β) (l : List β)
    (h : (List.finRange n).mapM g = .ok l) :
    finMapM g = if hl : l.length = n then .ok fun i => l[i.val]'(by omega) else .error .indexError := by
  unfold finMapM
  split
  · rename_i e' he
    rw [he] at h
    cases h
  · rename_i l' hl
    rw [hl] at h
    cases h
    rfl

theorem finMapM_except_map {n : Nat} {β β' : Type} (h : β → β') (g : Fin n → Except Err β) :
    finMapM (fun i => (g i).map h) = (finMapM g).map fun f i => h (f i) := by
  have key := mapM_except_map h g (List.finRange n)
  cases hg : (List.finRange n).mapM g with
  | error e =>
    rw [hg] at key
    rw [finMapM_of_error _ e key, finMapM_of_error _ e hg]
    rfl
  | ok l =>
    rw [hg] at key
    rw [finMapM_of_ok _ _ key, finMapM_of_ok _ l hg]
    by_cases hn : l.length = n
    · rw [dif_pos (by simpa using hn), dif_pos hn]
      simp [Except.map]
    · rw [dif_neg (by simpa using hn), dif_neg hn]
      rfl

theorem convert_map (f : B → B') (zero unset : B) (fmax thr tol : K) (N : Nat) (inp : ScIn K (nu + 1) ns)
    (rows : Fin (nu + 1) → Fin ns → B) :
    convertFcPhases (f zero) (f unset) fmax thr tol N inp (fun i k => f (rows i k)) =
      (convertFcPhases zero unset fmax thr tol N inp rows).map (ScOut.mapBlocks f) := by
  unfold convertFcPhases
  cases cellOriginsPerAtom inp tol with
  | error e => rfl
  | ok o =>
    simp only [bind, Except.bind]
    cases finMapM fun k => mapOrigin inp.S (fun c : Fin (atom0Idx inp).length => o ((atom0Idx inp).get c)) (o k) with
    | error e => rfl
    | ok cmap =>
      dsimp only
      by_cases hl : (atom0Idx inp).length ≠ (det inp.S).natAbs
      · simp only [if_pos hl]; rfl
      · simp only [if_neg hl]
        have gen : ∀ (G' : Fin (nu + 1) → Except Err (Nat → Fin (nu + 1) → B'))
            (G : Fin (nu + 1) → Except Err (Nat → Fin (nu + 1) → B)),
            (∀ i, G' i = (G i).map fun g c j => f (g c j)) →
            (Except.bind (finMapM G') fun v => Except.ok (⟨fun c : Fin (atom0Idx inp).length => o ((atom0Idx inp).get c),
              fun c i j => v i c.val j⟩ : ScOut B' (nu + 1) (atom0Idx inp).length)) =
            (Except.bind (finMapM G) fun v => Except.ok (⟨fun c : Fin (atom0Idx inp).length => o ((atom0Idx inp).get c),
              fun c i j => v i c.val j⟩ : ScOut B (nu + 1) (atom0Idx inp).length)).map (ScOut.mapBlocks f) := by
          intro G' G hG
          rw [funext hG, finMapM_except_map]
          cases finMapM G with
          | error e => rfl
          | ok conv => rfl
        refine gen _ _ fun i => ?_
        cases (List.finRange ns).find? fun k => decide (inp.scToUc k = i) with
        | none => rfl
        | some k0 =>
          dsimp only
          cases relativeIdx inp.S (fun c : Fin (atom0Idx inp).length => o ((atom0Idx inp).get c)) fmax thr N with
          | error e => rfl
          | ok rels =>
            dsimp only
            refine congrArg Except.ok ?_
            have h1 := assignAll_map f (fun _ => zero)
              ((List.finRange ns).map fun k => ((cmap k, inp.scToUc k), rows i k))
            rw [List.map_map] at h1
            have h2 := assignAll_map (fun (g : Fin (nu + 1) → B) j => f (g j)) (fun _ => fun _ => unset)
              ((List.finRange (atom0Idx inp).length).map fun c => ((rels.getD (cmap k0).val fun _ => 0) c,
                  fun j => assignAll (fun _ => zero)
                    ((List.finRange ns).map fun k => ((cmap k, inp.scToUc k), rows i k)) (c, j)))
            rw [List.map_map] at h2
            refine Eq.trans ?_ h2
            refine congrArg _ (List.map_congr_left fun c _ => ?_)
            refine Prod.ext rfl ?_
            funext j
            exact congrFun h1 (c, j)

/-- The values with which the work arrays are filled do not matter. -/
theorem convert_fill (zero unset zero' unset' : B) {fmax thr : K} (tol : K) {N : Nat} (inp : ScIn K (nu + 1) ns)
    (hn : Numeric inp.S fmax thr N) (rows : Fin (nu + 1) → Fin ns → B)
    (hd : ∀ o, cellOriginsPerAtom inp tol = .ok o → DistinctAtoms inp o)
    (hf : ∀ i, ∃ k0, IsFirstCopy inp i k0) :
    convertFcPhases zero unset fmax thr tol N inp rows = convertFcPhases zero' unset' fmax thr tol N inp rows := by
  let g : B → B → B ⊕ Bool → B := fun z u x => match x with
    | .inl b => b
    | .inr true => z
    | .inr false => u
  have e : ∀ z u : B, convertFcPhases z u fmax thr tol N inp rows =
      (convertFcPhases (.inr true : B ⊕ Bool) (.inr false) fmax thr tol N inp (fun i k => .inl (rows i k))).map
        (ScOut.mapBlocks (g z u)) := by
    intro z u
    have := convert_map (g z u) (.inr true) (.inr false) fmax thr tol N inp (fun i k => .inl (rows i k))
    exact this
  rw [e zero unset, e zero' unset']
  cases h : convertFcPhases (.inr true : B ⊕ Bool) (.inr false) fmax thr tol N inp (fun i k => .inl (rows i k)) with
  | error e => rfl
  | ok out =>
    refine congrArg Except.ok ?_
    unfold ScOut.mapBlocks
    refine congrArg (ScOut.mk out.cells) ?_
    funext c i j
    obtain ⟨o, ho⟩ : ∃ o, cellOriginsPerAtom inp tol = .ok o := by
      cases ho : cellOriginsPerAtom inp tol with
      | error e => unfold convertFcPhases at h; rw [ho] at h; cases h
      | ok o => exact ⟨o, rfl⟩
    obtain ⟨k0, hk0⟩ := hf i
    obtain ⟨E, hE⟩ := C40_blocks_kept _ _ tol inp hn _ out h o ho (hd o ho) i k0 hk0
    have := (hE (E.symm (c, j))).2.1
    rw [E.apply_symm_apply] at this
    dsimp only at this
    rw [this]

end Euphonic.Supercell
