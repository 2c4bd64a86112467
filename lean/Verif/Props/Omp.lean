import Verif.Model.Omp
import Mathlib.Data.List.Nodup
import Mathlib.Tactic.Ring
import Mathlib.Tactic.Linarith

/-! # C54: independence of threads and schedules -/

set_option autoImplicit false

namespace Euphonic.Omp

variable {R : Type}

/-- Specification: the result of a sequential run, where the direction of a gamma point is the one
listed at its (first) position in `split_idx`. -/
def expected (I : Input R) (q : Nat) : R :=
  if I.gamma q then I.f q (some (I.split.idxOf q : ℤ)) else I.f q none

/-- What is known about a thread that is alone in using the shared variables. -/
def Local (I : Input R) (s : State R) (th : Thread) : Prop :=
  match th.pc, th.queue with
  | _, [] => True
  | .idle, _ => True
  | .setI, q :: _ => I.gamma q = true
  | .test, q :: _ => I.gamma q = true ∧ s.i ≤ I.split.idxOf q
  | .cmp, q :: _ => I.gamma q = true ∧ s.i ≤ I.split.idxOf q
  | .rd, q :: _ => I.gamma q = true ∧ s.i = I.split.idxOf q
  | .wr tmp, q :: _ => I.gamma q = true ∧ tmp = I.split.idxOf q
  | .rdInc, q :: _ => I.gamma q = true ∧ s.i < I.split.idxOf q
  | .wrInc tmp, q :: _ => I.gamma q = true ∧ tmp < I.split.idxOf q
  | .use, q :: _ => I.gamma q = true ∧ s.qpos = I.split.idxOf q

structure Inv (I : Input R) (work : Nat → List Nat) (t0 : Nat) (s : State R) : Prop where
  others : ∀ t, t ≠ t0 → (s.threads t).pc = .idle
  suffix : ∀ t, ∃ done, work t = done ++ (s.threads t).queue
  loc : Local I s (s.threads t0)
  out : ∀ q r, s.out q = some r → r = expected I q
  done : ∀ t, ∀ q ∈ work t, q ∈ (s.threads t).queue ∨ s.out q = some (expected I q)
  good : s.bad = false

theorem mem_of_suffix {work : Nat → List Nat} {t : Nat} {q : Nat} {rest : List Nat}
    (h : ∃ done, work t = done ++ q :: rest) : q ∈ work t := by
  obtain ⟨d, hd⟩ := h
  rw [hd]; simp

theorem inv_step {I : Input R} {work : Nat → List Nat} {t0 : Nat}
    (hg : ∀ q, I.gamma q = true → q ∈ I.split)
    (hw : ∀ t, t ≠ t0 → ∀ q ∈ work t, I.gamma q = false) {s : State R} (h : Inv I work t0 s) (t : Nat) :
    Inv I work t0 (step I t s) := by
  obtain ⟨h1, h2, h3, h4, h5, h6⟩ := h
  -- a general way to build the invariant after replacing thread `t`
  have build : ∀ (s' : State R) (th : Thread), (∀ t', s'.threads t' = if t' = t then th else s.threads t') →
      (t ≠ t0 → th.pc = .idle) → (∃ done, work t = done ++ th.queue) →
      (t = t0 → Local I s' th) → (t ≠ t0 → s'.i = s.i ∧ s'.qpos = s.qpos) →
      (∀ q r, s'.out q = some r → r = expected I q) →
      (∀ q, s.out q = some (expected I q) → s'.out q = some (expected I q)) →
      (∀ q ∈ (s.threads t).queue, q ∈ th.queue ∨ s'.out q = some (expected I q)) → s'.bad = false →
      Inv I work t0 s' := by
    intro s' th e1 e2 e3 e4 e5 e6 e7 e8 e9
    refine ⟨?_, ?_, ?_, e6, ?_, e9⟩
    · intro t' ht'
      rw [e1]
      split
      · rename_i h; subst h; exact e2 ht'
      · exact h1 t' ht'
    · intro t'
      rw [e1]
      split
      · rename_i h; subst h; exact e3
      · exact h2 t'
    · rw [e1]
      split
      · rename_i h; exact e4 h.symm
      · rename_i h
        obtain ⟨ei, eq⟩ := e5 (fun e => h e.symm)
        unfold Local at h3 ⊢
        rw [ei, eq]
        exact h3
    · intro t' q hq
      rw [e1]
      rcases h5 t' q hq with hh | hh
      · split
        · rename_i h; subst h; exact e8 q hh
        · exact Or.inl hh
      · exact Or.inr (e7 q hh)
  have hsuf := h2 t
  rcases hth : s.threads t with ⟨pc, queue⟩
  rw [hth] at hsuf
  cases queue with
  | nil =>
      have : step I t s = s := by unfold step; rw [hth]
      rw [this]; exact ⟨h1, h2, h3, h4, h5, h6⟩
  | cons q rest =>
      have hrest : ∃ done, work t = done ++ rest := by
        obtain ⟨d, hd⟩ := hsuf
        exact ⟨d ++ [q], by rw [hd]; simp⟩
      have hqw : q ∈ work t := mem_of_suffix hsuf
      have hL : t = t0 → Local I s ⟨pc, q :: rest⟩ := by rintro rfl; rw [← hth]; exact h3
      have hsame : ∀ q' ∈ (s.threads t).queue, q' ∈ q :: rest := by
        intro q' hq'; rw [hth] at hq'; exact hq'
      have hidle : pc ≠ .idle → t = t0 := by
        intro hpc
        by_contra hne
        have := h1 t hne
        rw [hth] at this
        exact hpc this
      -- a q-point is finished
      have finish : ∀ (s' : State R) (r : R), r = expected I q → s'.out = s.out → s'.bad = false →
          s'.threads = s.threads → (t ≠ t0 → s'.i = s.i ∧ s'.qpos = s.qpos) →
          Inv I work t0 (setThread (setOut s' q r) t ⟨.idle, rest⟩) := by
        intro s' r hr ho hb hts hi
        refine build _ ⟨.idle, rest⟩ (fun t' => by simp [setThread, setOut, hts]) (fun _ => rfl) hrest
          (fun _ => by unfold Local; cases rest <;> trivial) hi ?_ ?_ ?_ hb
        · intro q' r' h'
          simp only [setThread, setOut, ho] at h'
          split at h'
          · rename_i e; rw [e]; cases h'; exact hr
          · exact h4 q' r' h'
        · intro q' h'
          simp only [setThread, setOut, ho]
          split
          · rename_i e; rw [e, hr]
          · exact h'
        · intro q' hq'
          rcases List.mem_cons.1 (hsame q' hq') with e | e
          · right; simp [setThread, setOut, e, hr]
          · exact Or.inl e
      -- the thread moves on
      have move : ∀ (s' : State R) (pc' : Pc), t = t0 → s'.out = s.out → s'.bad = false →
          s'.threads = s.threads → Local I s' ⟨pc', q :: rest⟩ →
          Inv I work t0 (setThread s' t ⟨pc', q :: rest⟩) := by
        intro s' pc' ht ho hb hts hl
        refine build _ ⟨pc', q :: rest⟩ (fun t' => by simp [setThread, hts]) (fun h => absurd ht h) hsuf
          (fun _ => hl) (fun h => absurd ht h) ?_ ?_ ?_ hb
        · intro q' r' h'; exact h4 q' r' (by simpa [setThread, ho] using h')
        · intro q' h'; simpa [setThread, ho] using h'
        · intro q' hq'; exact Or.inl (hsame q' hq')
      unfold step
      rw [hth]
      cases pc with
      | idle =>
          dsimp only
          by_cases hgq : I.gamma q = true
          · rw [if_pos hgq]
            have ht : t = t0 := by
              by_contra hne
              rw [hw t hne q hqw] at hgq
              exact Bool.noConfusion hgq
            exact move _ _ ht rfl h6 rfl hgq
          · rw [if_neg hgq]
            exact finish s _ (by unfold expected; rw [if_neg hgq]) rfl h6 rfl (fun _ => ⟨rfl, rfl⟩)
      | setI =>
          have ht := hidle (by simp)
          exact move _ _ ht rfl h6 rfl ⟨hL ht, Nat.zero_le _⟩
      | test =>
          have ht := hidle (by simp)
          have hl : I.gamma q = true ∧ s.i ≤ I.split.idxOf q := hL ht
          have hlt := List.idxOf_lt_length_iff.2 (hg q hl.1)
          dsimp only
          rw [if_pos (by omega)]
          exact move _ _ ht rfl h6 rfl hl
      | cmp =>
          have ht := hidle (by simp)
          have hl : I.gamma q = true ∧ s.i ≤ I.split.idxOf q := hL ht
          have hlt := List.idxOf_lt_length_iff.2 (hg q hl.1)
          have hi : s.i < I.split.length := by omega
          dsimp only
          refine move _ _ ht rfl (by simp [h6, hi]) rfl ?_
          by_cases hq : I.split[s.i]? = some q
          · rw [if_pos hq]
            refine ⟨hl.1, le_antisymm hl.2 ?_⟩
            rw [List.getElem?_eq_getElem hi, Option.some.injEq] at hq
            by_contra hlt'
            change ¬I.split.idxOf q ≤ s.i at hlt'
            have := List.not_of_lt_findIdx (p := (· == q)) (xs := I.split) (i := s.i)
              (by unfold List.idxOf at hlt'; omega)
            simp [hq] at this
          · rw [if_neg hq]
            refine ⟨hl.1, lt_of_le_of_ne hl.2 ?_⟩
            intro e
            apply hq
            change s.i = _ at e
            rw [e, List.getElem?_eq_getElem hlt, List.getElem_idxOf hlt]
      | rd =>
          have ht := hidle (by simp)
          exact move _ _ ht rfl h6 rfl (hL ht)
      | wr tmp =>
          have ht := hidle (by simp)
          have hl : I.gamma q = true ∧ tmp = I.split.idxOf q := hL ht
          exact move _ _ ht rfl h6 rfl ⟨hl.1, by simp [hl.2]⟩
      | rdInc =>
          have ht := hidle (by simp)
          exact move _ _ ht rfl h6 rfl (hL ht)
      | wrInc tmp =>
          have ht := hidle (by simp)
          have hl : I.gamma q = true ∧ tmp < I.split.idxOf q := hL ht
          exact move _ _ ht rfl h6 rfl ⟨hl.1, hl.2⟩
      | use =>
          have ht := hidle (by simp)
          have hl : I.gamma q = true ∧ s.qpos = I.split.idxOf q := hL ht
          have hlt := List.idxOf_lt_length_iff.2 (hg q hl.1)
          refine finish _ _ ?_ rfl ?_ rfl (fun h => absurd ht h)
          · unfold expected; rw [if_pos hl.1]; simp [hl.2]
          · simp only [h6, Bool.false_or, decide_eq_false_iff_not]
            rw [hl.2]; omega

/-- **C54, partial.** If at most one thread gets gamma points for which a direction has to be found (one
thread, or no LO-TO splitting, or at most one gamma point, or all of them in one chunk), then for every number
of threads, every distribution of the q-points and every schedule: every result that has been stored is
the sequential one, a thread that has finished has stored the results of all its q-points, and no access
was out of range.  Missing: gamma points in several threads, where it is false. -/
theorem C54_schedule_partial (I : Input R) (work : Nat → List Nat) (i0 : Nat) (qpos0 : ℤ) (sched : List Nat)
    (hg : ∀ q, I.gamma q = true → q ∈ I.split) (t0 : Nat)
    (hw : ∀ t, t ≠ t0 → ∀ q ∈ work t, I.gamma q = false) :
    let s := run I sched (start work i0 qpos0)
    (∀ q r, s.out q = some r → r = expected I q)
    ∧ (∀ t, (s.threads t).queue = [] → ∀ q ∈ work t, s.out q = some (expected I q))
    ∧ s.bad = false := by
  have key : ∀ s : State R, Inv I work t0 s → Inv I work t0 (run I sched s) := by
    unfold run
    induction sched with
    | nil => intro s h; exact h
    | cons t sched ih => intro s h; exact ih _ (inv_step hg hw h t)
  have h := key (start work i0 qpos0) ⟨fun _ _ => rfl, fun t => ⟨[], rfl⟩, by
      unfold Local; simp only [start]; split <;> trivial, fun q r h => by simp [start] at h,
    fun t q hq => Or.inl hq, rfl⟩
  refine ⟨h.out, fun t ht q hq => ?_, h.good⟩
  rcases h.done t q hq with hh | hh
  · rw [ht] at hh; cases hh
  · exact hh

/-! ## The race -/

/-- Two gamma points, one per thread; the result is the position of the direction that was used. -/
def twoGamma : Input (Option ℤ) := ⟨[0, 1], fun _ => true, fun _ d => d⟩

/-- A schedule that runs to the end with the right results. -/
example :
    let s := run twoGamma ((List.replicate 7 0) ++ List.replicate 11 1) (start (fun t => [[0], [1]].getD t []) 7 7)
    s.out 0 = some (some 0) ∧ s.out 1 = some (some 1) ∧ s.bad = false
      ∧ (s.threads 0).queue = [] ∧ (s.threads 1).queue = [] := by
  decide

/-- The hypotheses of the theorem are met with both gamma points in one thread and another q-point in a
second thread. -/
example (sched : List Nat) :
    let s := run (⟨[0, 1], fun q => decide (q ≤ 1), fun q d => (q, d)⟩ : Input (Nat × Option ℤ)) sched
      (start (fun t => [[0, 1], [2]].getD t []) 7 7)
    (∀ r, s.out 0 = some r → r = (0, some 0)) ∧ (∀ r, s.out 1 = some r → r = (1, some 1))
      ∧ (∀ r, s.out 2 = some r → r = (2, none)) ∧ s.bad = false := by
  have h := C54_schedule_partial (⟨[0, 1], fun q => decide (q ≤ 1), fun q d => (q, d)⟩ : Input (Nat × Option ℤ))
    (fun t => [[0, 1], [2]].getD t []) 7 7 sched (by
      intro q hq
      simp only [decide_eq_true_eq] at hq
      obtain rfl | rfl : q = 0 ∨ q = 1 := by omega
      · simp
      · simp) 0 (by
      intro t ht q hq
      rcases t with _ | _ | t
      · exact absurd rfl ht
      · simp at hq; simp [hq]
      · simp at hq)
  exact ⟨fun r hr => h.1 0 r hr, fun r hr => h.1 1 r hr, fun r hr => h.1 2 r hr, h.2.2⟩

/-- **C54, violation.** Two threads with a gamma point each: there is a schedule after which a q-point was
calculated with the direction of the other one. -/
theorem C54_race_wrong_direction :
    ∃ sched, let s := run twoGamma sched (start (fun t => [[0], [1]].getD t []) 0 0)
      (s.threads 0).queue = [] ∧ (s.threads 1).queue = [] ∧ expected twoGamma 0 = some 0
        ∧ s.out 0 = some (some 1) :=
  -- thread 0 finds its position and stores it, thread 1 then finds its own, thread 0 reads `qpos`
  ⟨List.replicate 6 0 ++ List.replicate 10 1 ++ [0, 1], by decide⟩

/-- **C54, violation.** There is a schedule after which a q-point was calculated with the position -1 (a read
before the array of directions), and one where the position is behind the end. -/
theorem C54_race_out_of_range :
    (∃ sched, let s := run twoGamma sched (start (fun t => [[0], [1]].getD t []) 0 0)
      s.out 0 = some (some (-1)) ∧ s.bad = true)
    ∧ ∃ sched, let s := run twoGamma sched (start (fun t => [[0], [1]].getD t []) 0 0)
      s.out 1 = some (some 2) ∧ s.bad = true :=
  ⟨⟨List.replicate 6 0 ++ [1, 0], by decide⟩,
   ⟨[0, 0, 0] ++ List.replicate 6 1 ++ [0, 0, 1, 1, 0, 1, 1, 1], by decide⟩⟩

/-! ## Output arrays -/

/-- **C54.** The parts of the output arrays that belong to different q-points (eigenvectors, frequencies,
gradients: `size` doubles from `q * size` on) do not overlap, and all lie within the `n * size` doubles
allocated. -/
theorem C54_outputs_disjoint (size n q q' k k' : Nat) (hq : q < n) (hk : k < size) (hk' : k' < size)
    (hne : q ≠ q') : q * size + k ≠ q' * size + k' ∧ q * size + k < n * size := by
  constructor
  · intro h
    apply hne
    have hd := congrArg (· / size) h
    beta_reduce at hd
    rw [mul_comm q, mul_comm q', Nat.mul_add_div (by omega), Nat.mul_add_div (by omega), Nat.div_eq_of_lt hk,
      Nat.div_eq_of_lt hk'] at hd
    omega
  · have : (q + 1) * size ≤ n * size := Nat.mul_le_mul_right _ hq
    nlinarith

end Euphonic.Omp
