import Verif.Proc.Frozen
import Verif.Proc.PropsThread
/-!
# C16: the list of threads during exit cleanup
-/

namespace Libmonitor.Proc

/-- C16: after exit cleanup has begun in this process (in thread `w`), no step of another thread
changes the list of threads, neither its elements nor their order.

Missing: executions outside `Clean` (`C16_reset_in_exit`). -/
theorem C16_frozen_partial {s s' : S} (hs : ReachA Clean s) {w t : Tid} {i : Inp}
    (hm : (w, .shootdown) ∈ own s.g.tr) (hne : t ≠ w) (hn : next s (.step t i) = some s') :
    s'.g.list = s.g.list :=
  frozen hs hm hne hn

/-- Main begins exit cleanup; thread 1 is about to unlink itself and thread 3 about to link itself:
both hold the list lock or are about to take it, and their steps leave the list alone. -/
example : ∃ s s' s2 s3, ReachA Clean s ∧ (0, .shootdown) ∈ own s.g.tr ∧ s.th 1 = [.ul0 (.slot 0 0), .tdtor] ∧
    s.th 3 = [.bt1 (.slot 0 2)] ∧ s.g.list.length = 2 ∧ run s (T 1 2) = some s' ∧
    run s' (T 3 1) = some s2 ∧ next s2 (.step 3 (.go true 0)) = some s3 ∧ s3.g.list = s.g.list := by
  obtain ⟨s, hr, hp⟩ := exists_of_runA (A := Clean)
    (ls := three ++ createN 0 90 91 11 ++ T 3 1 ++ T 1 4 ++ C 0 .exit ++ T 0 7)
    (p := fun s => decide ((0, .shootdown) ∈ own s.g.tr ∧ s.th 1 = [.ul0 (.slot 0 0), .tdtor] ∧
      s.th 3 = [.bt1 (.slot 0 2)] ∧ s.g.list.length = 2 ∧
      ((run s (T 1 2 ++ T 3 2)).map (fun s3 => decide (s3.g.list = s.g.list))) = some true))
    (by decide +kernel)
  obtain ⟨h1, h2, h3, h4, h5⟩ := of_decide_eq_true hp
  have hrun : ∀ {a b : List Lbl} {s : S}, run s (a ++ b) = (run s a).bind (fun s' => run s' b) := by
    intro a b
    induction a with
    | nil => intro s; rfl
    | cons l a ih =>
      intro s
      simp only [List.cons_append, run]
      cases next s l with
      | none => rfl
      | some s' => exact ih
  rw [hrun] at h5
  cases e1 : run s (T 1 2) with
  | none => rw [e1] at h5; cases h5
  | some s' =>
    rw [e1] at h5
    simp only [Option.bind_some] at h5
    rw [show T 3 2 = T 3 1 ++ T 3 1 from rfl, hrun] at h5
    cases e2 : run s' (T 3 1) with
    | none => rw [e2] at h5; cases h5
    | some s2 =>
      rw [e2] at h5
      simp only [Option.bind_some] at h5
      cases e3 : next s2 (.step 3 (.go true 0)) with
      | none => simp [T, run, e3] at h5
      | some s3 =>
        simp [T, run, e3] at h5
        exact ⟨s, s', s2, s3, hr, h1, h2, h3, h4, e1, e2, e3, h5⟩

/-- C16 fails outside `Clean`: in a child, before its thread list is reset, a signal handler
creates a thread, which begins exit cleanup; then the main thread resets the list. -/
theorem C16_reset_in_exit : ∃ s s', Reach s ∧ (2, .shootdown) ∈ own s.g.tr ∧
    next s (.step 0 (.go true 0)) = some s' ∧ s'.g.list ≠ s.g.list := by
  obtain ⟨s, hr, hp⟩ := exists_of_run
    (ls := toMain ++ create1 0 70 71 9 ++ C 0 .fork ++ T 0 1 ++ V 0 9 ++ [.fork 0] ++ I 0 ++
      createN 0 80 81 10 ++ begin 2 6 ++ C 2 .exit ++ T 2 7 ++ T 0 2)
    (p := fun s => decide ((2, .shootdown) ∈ own s.g.tr ∧
      ((next s (.step 0 (.go true 0))).map (fun s' => decide (s'.g.list ≠ s.g.list))) = some true))
    (by decide +kernel)
  obtain ⟨h1, h2⟩ := of_decide_eq_true hp
  cases e : next s (.step 0 (.go true 0)) with
  | none => rw [e] at h2; cases h2
  | some s' =>
    rw [e] at h2
    simp only [Option.map_some, Option.some.injEq, decide_eq_true_eq] at h2
    exact ⟨s, s', hr, h1, e, h2⟩

end Libmonitor.Proc
