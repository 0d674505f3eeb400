import Verif.Proc.Finished
import Verif.Proc.Sched
/-!
# C14: all threads are finished before fini-process
-/

namespace Libmonitor.Proc

/-- C14: when fini-process starts and the process has had a shootdown, every registered thread
whose start routine had begun when it did, and the initial thread if it is not the exiting one, has
returned from fini-thread, or the shootdown gave up.

Missing: the exiting thread itself if it has called exit from within its fini-thread callback
(`C14_exit_in_fini_thread`); executions outside `Clean` (`C14_dying_for_other`). Threads that the
client has had ignored have no fini-thread: C17. -/
theorem C14_all_finished_partial {s : S} (hs : ReachA Clean s) : Always finishedSpec s.g.tr :=
  (finished_inv hs).1

/-- Thread 1 exits; main and thread 2 finish on its signal, and itself last. -/
example : ∃ s, ReachA Clean s ∧ ∃ old tl, s.g.tr = tl ++ (1, .finiProcess .normal 0) :: old ∧
    (∃ a b, own old = a ++ (1, .shootdown) :: b ∧ (2, .linked 2) ∈ b ∧ (2, .start 80 81) ∈ b ∧
      (1, .linked 1) ∈ b ∧ (1, .start 70 71) ∈ b) ∧ mainOf old = 0 ∧
    (0, .finiThreadRet 0) ∈ own old ∧ (1, .finiThreadRet 1) ∈ own old ∧
    (2, .finiThreadRet 2) ∈ own old ∧ (1, .gaveUp) ∉ old := by
  obtain ⟨s, hr, hp⟩ := exists_of_runA (A := Clean) (ls := threeExit)
    (p := fun s => decide (
      s.g.tr = s.g.tr.take 5 ++ (1, .finiProcess .normal 0) :: s.g.tr.drop 6 ∧
      (own (s.g.tr.drop 6) = (s.g.tr.drop 6).take 8 ++ (1, .shootdown) :: s.g.tr.drop 15 ∧
        (2, .linked 2) ∈ s.g.tr.drop 15 ∧ (2, .start 80 81) ∈ s.g.tr.drop 15 ∧
        (1, .linked 1) ∈ s.g.tr.drop 15 ∧ (1, .start 70 71) ∈ s.g.tr.drop 15) ∧
      mainOf (s.g.tr.drop 6) = 0 ∧
      (0, .finiThreadRet 0) ∈ own (s.g.tr.drop 6) ∧ (1, .finiThreadRet 1) ∈ own (s.g.tr.drop 6) ∧
      (2, .finiThreadRet 2) ∈ own (s.g.tr.drop 6) ∧ (1, .gaveUp) ∉ s.g.tr.drop 6))
    (by decide +kernel)
  obtain ⟨h1, h2, h3⟩ := of_decide_eq_true hp
  exact ⟨s, hr, _, _, h1, ⟨_, _, h2⟩, h3⟩

/-- The exit cleanup waits for thread 1, which is inside its fini-thread callback when it begins. -/
example : ∃ s, ReachA Clean s ∧ s.g.tr.take 7 =
    [(0, .finiProcess .normal 0), (1, .finiThreadRet 1), (2, .finiThreadRet 2),
     (2, .finiThread 2 6 .handler), (0, .shootdown), (0, .beginExitRet .normal),
     (0, .beginExit .normal)] ∧ (1, .finiThread 1 5 .cleanup) ∈ s.g.tr := by
  obtain ⟨s, hr, hp⟩ := exists_of_runA (A := Clean)
    (ls := three ++ T 1 3 ++ C 0 .exit ++ T 0 8 ++ D 2 ++ T 2 3 ++ T 1 1 ++ T 0 8)
    (p := fun s => decide (s.g.tr.take 7 =
    [(0, .finiProcess .normal 0), (1, .finiThreadRet 1), (2, .finiThreadRet 2),
     (2, .finiThread 2 6 .handler), (0, .shootdown), (0, .beginExitRet .normal),
     (0, .beginExit .normal)] ∧ (1, .finiThread 1 5 .cleanup) ∈ s.g.tr)) (by decide +kernel)
  exact ⟨s, hr, of_decide_eq_true hp⟩

/-- No thread handles the signal in time, and the shootdown gives up. -/
example : ∃ s, ReachA Clean s ∧ s.g.tr.take 5 =
    [(0, .finiProcess .normal 0), (0, .gaveUp), (0, .kill (some 1) none),
     (0, .kill (some 2) none), (0, .shootdown)] ∧ occurs Ev.isFiniThread s.g.tr = 0 := by
  obtain ⟨s, hr, hp⟩ := exists_of_runA (A := Clean)
    (ls := three ++ C 0 .exit ++ T 0 18)
    (p := fun s => decide (s.g.tr.take 5 =
    [(0, .finiProcess .normal 0), (0, .gaveUp), (0, .kill (some 1) none),
     (0, .kill (some 2) none), (0, .shootdown)] ∧ occurs Ev.isFiniThread s.g.tr = 0))
    (by decide +kernel)
  exact ⟨s, hr, of_decide_eq_true hp⟩

/-- C14 fails for the exiting thread: thread 1 calls exit from within its fini-thread callback;
fini-process starts inside it. The shootdown has not given up. -/
theorem C14_exit_in_fini_thread : ∃ s, ReachA Clean s ∧ s.g.tr.take 9 =
    [(1, .finiProcess .normal 0), (2, .finiThreadRet 2), (2, .finiThread 2 6 .handler),
     (0, .finiThreadRet 0), (0, .finiThread 0 0 .handler), (1, .shootdown),
     (1, .beginExitRet .normal), (1, .beginExit .normal), (1, .finiThread 1 5 .cleanup)] ∧
    (1, .start 70 71) ∈ s.g.tr ∧ (∀ k, (1, .finiThreadRet k) ∉ s.g.tr) := by
  obtain ⟨s, hr, hp⟩ := exists_of_runA (A := Clean)
    (ls := three ++ T 1 3 ++ C 1 .exit ++ T 1 8 ++ D 0 ++ T 0 3 ++ D 2 ++ T 2 3 ++ T 1 9)
    (p := fun s => decide (s.g.tr.take 9 =
    [(1, .finiProcess .normal 0), (2, .finiThreadRet 2), (2, .finiThread 2 6 .handler),
     (0, .finiThreadRet 0), (0, .finiThread 0 0 .handler), (1, .shootdown),
     (1, .beginExitRet .normal), (1, .beginExit .normal), (1, .finiThread 1 5 .cleanup)] ∧
    (1, .start 70 71) ∈ s.g.tr ∧ occursBy 1 Ev.isFiniThreadRet s.g.tr = 0)) (by decide +kernel)
  obtain ⟨h1, h2, h3⟩ := of_decide_eq_true hp
  refine ⟨s, hr, h1, h2, fun k hk => ?_⟩
  have := occursBy_pos hk (p := Ev.isFiniThreadRet) rfl
  omega

/-- C14 fails outside `Clean`: thread 1 is in the destructors of its thread-specific data and
thread 3 has got its record. Thread 1 receives a shootdown signal and runs fini-thread for the
record; the cleanup takes that for thread 3's. Thread 3 never runs it. -/
theorem C14_dying_for_other : ∃ s, Reach s ∧ s.g.tr.take 6 =
    [(0, .finiProcess .normal 0), (2, .finiThreadRet 2), (2, .finiThread 2 6 .handler),
     (1, .finiThreadRet 3), (1, .finiThread 3 7 .handler), (0, .shootdown)] ∧
    (3, .start 90 91) ∈ s.g.tr ∧ occursBy 3 Ev.isFiniThread s.g.tr = 0 := by
  obtain ⟨s, hr, hp⟩ := exists_of_run
    (ls := recordReused ++ C 0 .exit ++ T 0 8 ++ D 1 ++ T 1 3 ++ D 2 ++ T 2 3 ++ T 0 8)
    (p := fun s => decide (s.g.tr.take 6 =
    [(0, .finiProcess .normal 0), (2, .finiThreadRet 2), (2, .finiThread 2 6 .handler),
     (1, .finiThreadRet 3), (1, .finiThread 3 7 .handler), (0, .shootdown)] ∧
    (3, .start 90 91) ∈ s.g.tr ∧ occursBy 3 Ev.isFiniThread s.g.tr = 0)) (by decide +kernel)
  exact ⟨s, hr, of_decide_eq_true hp⟩

end Libmonitor.Proc
