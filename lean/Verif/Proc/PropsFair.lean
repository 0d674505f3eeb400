import Verif.Proc.Fair
/-!
# C58: under a fair scheduler every thread that waits is released

`C58_released_partial` says that some execution of the other threads releases a thread that
waits.  Here: every fair one does.
-/

namespace Libmonitor.Proc

/-- C58, under a fair scheduler: an orderly process in which nothing new is called comes to rest,
whatever the interleaving and the outcomes of external calls.  The process is gone, or all its
threads are. -/
theorem C58_rest_partial {σ : Nat → S} {act : Nat → Act} (R : FairRun σ act) :
    ∃ N, ∀ j, N ≤ j → (σ j).g.dead = true ∨ ∀ u, (σ j).th u = [] := by
  by_cases hd : ∃ i, (σ i).g.dead = true
  · obtain ⟨i, hi⟩ := hd
    exact ⟨i, fun j hj => Or.inl (by rw [R.dead hi hj]; exact hi)⟩
  · have hd : ∀ i, (σ i).g.dead = false := fun i => by
      cases h : (σ i).g.dead with
      | false => rfl
      | true => exact absurd ⟨i, h⟩ hd
    obtain ⟨N, h⟩ := R.rest hd
    refine ⟨N, fun j hj => Or.inr fun u => Classical.byContradiction fun hl => ?_⟩
    obtain ⟨w, _, h1, h2⟩ := C58_no_deadlock_partial (R.reach j) (hd j) (h j hj u hl)
    refine h1 (h j hj w ?_)
    intro e
    obtain ⟨s', hs'⟩ := h2 true 0
    simp [next, step, hd j, e] at hs'

/-- C58, under a fair scheduler, in orderly executions (see `Orderly`): a thread that has to wait
need not wait any more at some later time, or the process is gone.  Missing: as in
`C58_someone_partial`; and executions in which other threads enter the library again and again (the
lock is not fair). -/
theorem C58_fair_partial {σ : Nat → S} {act : Nat → Act} (R : FairRun σ act) {i : Nat} {t : Tid}
    (_ : blocked (σ i) t) :
    ∃ j, i ≤ j ∧ ((σ j).g.dead = true ∨ ¬ blocked (σ j) t) := by
  obtain ⟨N, h⟩ := C58_rest_partial R
  refine ⟨max i N, Nat.le_max_left .., (h _ (Nat.le_max_right ..)).imp id fun h hb => ?_⟩
  have e := h t
  rcases hb with ⟨⟨f, hf, _⟩, _⟩ | ⟨⟨f, hf, _⟩, _⟩ | ⟨⟨f, hf, _⟩, _⟩ <;> rw [e] at hf <;> cases hf

/-! ## An execution -/

/-- The actions can be done one after the other, are orderly, and end the process. -/
def endsBy (s : S) : List (Tid × Bool × Nat) → Bool
  | [] => s.g.dead
  | (u, ok, v) :: l => decide (Orderly s (.step u (.go ok v))) &&
      ((next s (.step u (.go ok v))).map (endsBy · l)).getD false

theorem fair_of_list {s : S} {l : List (Tid × Bool × Nat)} (hs : ReachA Orderly s)
    (h : endsBy s l = true) : ∃ σ act, FairRun σ act ∧ σ 0 = s ∧ (σ l.length).g.dead = true ∧
      ∀ i, act i = l[i]? := by
  induction l generalizing s with
  | nil =>
    have h : s.g.dead = true := h
    refine ⟨fun _ => s, fun _ => none, ⟨hs, fun _ => rfl, fun i u hgo => ?_, 0, fun _ _ _ _ _ e => by
      cases e⟩, rfl, h, fun _ => rfl⟩
    obtain ⟨s', hs'⟩ := hgo i (Nat.le_refl _)
    simp [next, step, h] at hs'
  | cons a l ih =>
    obtain ⟨u, ok, v⟩ := a
    simp only [endsBy, Bool.and_eq_true, decide_eq_true_eq] at h
    obtain ⟨ho, h⟩ := h
    cases hn : next s (.step u (.go ok v)) with
    | none => rw [hn] at h; cases h
    | some s1 =>
      rw [hn] at h
      obtain ⟨σ, act, R, h0, hdd, hl⟩ := ih (.next hs ho hn) h
      refine ⟨fun i => match i with | 0 => s | i + 1 => σ i,
        fun i => match i with | 0 => some (u, ok, v) | i + 1 => act i,
        ⟨hs, fun i => ?_, fun i w hgo => ?_, ?_⟩, rfl, hdd, fun i => ?_⟩
      · cases i with
        | zero => exact ⟨ho, by show next s _ = some (σ 0); rw [h0]; exact hn⟩
        | succ i => exact R.step i
      · obtain ⟨j, hj, ok', v', ha⟩ := R.fair i w (fun j hj => hgo (j + 1) (Nat.le_succ_of_le hj))
        exact ⟨j + 1, Nat.le_succ_of_le hj, ok', v', ha⟩
      · obtain ⟨N, hN⟩ := R.clock
        refine ⟨N + 1, fun j hj => ?_⟩
        cases j with
        | zero => omega
        | succ j => exact hN j (by omega)
      · cases i with
        | zero => rfl
        | succ i => exact hl i

/-- The rest of `chain`: 3 leaves the lock, 2 ends fini-thread, 1 delivers the exit callbacks, 0
goes on, 1 ends the process. -/
def chainEnd : List (Tid × Bool × Nat) :=
  List.replicate 13 (3, true, 0) ++ List.replicate 7 (2, false, 5) ++
    List.replicate 4 (2, true, 0) ++ List.replicate 13 (1, true, 0) ++ List.replicate 2 (0, true, 0) ++ List.replicate 3 (1, true, 0)

/-- Three waiting threads. -/
example : ∃ σ act, FairRun σ act ∧ blocked (σ 0) 0 ∧ blocked (σ 0) 1 ∧ blocked (σ 0) 2 ∧
    (σ 0).g.dead = false := by
  obtain ⟨s, hr, hp⟩ := exists_of_runA (A := Orderly) (ls := chain)
    (p := fun s => !s.g.dead && (s.th 0).head?.any Frame.isEpWait && !s.g.finiProcDone &&
      (s.th 1).head?.any Frame.polls &&
      s.g.list.contains (.slot 0 1) && awaited s.g 1 (.slot 0 1) &&
      (s.th 2).head?.any Frame.wantsLock && s.g.lock && endsBy s chainEnd)
    (by decide +kernel)
  simp only [Bool.and_eq_true, Bool.not_eq_true', List.contains_iff_mem] at hp
  obtain ⟨⟨⟨⟨⟨⟨⟨⟨h1, h2⟩, h3⟩, h4⟩, h5⟩, h6⟩, h7⟩, h8⟩, h9⟩ := hp
  obtain ⟨σ, act, R, h0, _⟩ := fair_of_list hr h9
  refine ⟨σ, act, R, ?_⟩
  rw [h0]
  exact ⟨Or.inr (Or.inl ⟨top_of h2, h3⟩), Or.inr (Or.inr ⟨top_of h4, _, h5, h6⟩),
    Or.inl ⟨top_of h7, h8⟩, h1⟩

end Libmonitor.Proc
