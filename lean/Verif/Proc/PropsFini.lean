import Verif.Proc.Once
import Verif.Proc.Sched
/-!
# C12: fini-thread is started at most once per thread
-/

namespace Libmonitor.Proc

/-- C12: in one process, no thread starts fini-thread twice, from whichever of the four places it
gets there (cleanup routine, shootdown handler, sigwait, and the exiting thread for itself).

Missing: a shootdown signal handled between a thread's test of tn_fini_started and its note there
(`C12_window_twice`); executions outside `Clean` (`C12_dying_twice`). -/
theorem C12_once_partial {s : S} (hs : ReachA CleanCalm s) (u : Tid) :
    occursBy u Ev.isFiniThread (own s.g.tr) ≤ 1 :=
  (once_inv hs).1.2.1 u

/-- In a process's execution three threads run fini-thread, two of them in the handler; thread 2 then
receives the signal again, returns from its start routine and does not run it again. -/
example : ∃ s, ReachA CleanCalm s ∧
    occursBy 0 Ev.isFiniThread (own s.g.tr) = 1 ∧ occursBy 1 Ev.isFiniThread (own s.g.tr) = 1 ∧
    occursBy 2 Ev.isFiniThread (own s.g.tr) = 1 ∧ s.th 2 = [.tdtor] := by
  obtain ⟨s, hr, hp⟩ := exists_of_runA (A := CleanCalm) (ls := threeExit ++ D 2 ++ T 2 3)
    (p := fun s => decide (
    occursBy 0 Ev.isFiniThread (own s.g.tr) = 1 ∧ occursBy 1 Ev.isFiniThread (own s.g.tr) = 1 ∧
    occursBy 2 Ev.isFiniThread (own s.g.tr) = 1 ∧ s.th 2 = [.tdtor])) (by decide +kernel)
  exact ⟨s, hr, of_decide_eq_true hp⟩

/-- The signal arrives while the thread is in the fini-thread callback of its cleanup routine. -/
example : ∃ s, ReachA CleanCalm s ∧ occursBy 1 Ev.isFiniThread (own s.g.tr) = 1 ∧
    (0, .kill (some 1) none) ∉ s.g.tr ∧ occurs Ev.isShootdown s.g.tr = 1 ∧ s.th 1 = [.tdtor] := by
  obtain ⟨s, hr, hp⟩ := exists_of_runA (A := CleanCalm)
    (ls := three ++ T 1 3 ++ C 0 .exit ++ T 0 13 ++ D 1 ++ T 1 4)
    (p := fun s => decide (occursBy 1 Ev.isFiniThread (own s.g.tr) = 1 ∧
    (0, .kill (some 1) none) ∉ s.g.tr ∧ occurs Ev.isShootdown s.g.tr = 1 ∧ s.th 1 = [.tdtor]))
    (by decide +kernel)
  exact ⟨s, hr, of_decide_eq_true hp⟩

/-- C12 fails without `Calm`: thread 1, in its cleanup routine, has tested that it has to run
fini-thread (pthread.c:926); before it notes that (928), the shootdown signal arrives, whose
handler runs fini-thread; then the cleanup routine does. All else is as in `Clean`. -/
theorem C12_window_twice : ∃ s, ReachA Clean s ∧ s.g.tr.take 4 =
    [(1, .finiThreadRet 1), (1, .finiThread 1 5 .cleanup),
     (1, .finiThreadRet 1), (1, .finiThread 1 5 .handler)] ∧
    occursBy 1 Ev.isFiniThread (own s.g.tr) = 2 := by
  obtain ⟨s, hr, hp⟩ := exists_of_runA (A := Clean)
    (ls := three ++ T 1 2 ++ C 0 .exit ++ T 0 13 ++ D 1 ++ T 1 8)
    (p := fun s => decide (s.g.tr.take 4 =
    [(1, .finiThreadRet 1), (1, .finiThread 1 5 .cleanup),
     (1, .finiThreadRet 1), (1, .finiThread 1 5 .handler)] ∧
    occursBy 1 Ev.isFiniThread (own s.g.tr) = 2)) (by decide +kernel)
  exact ⟨s, hr, of_decide_eq_true hp⟩

/-- C12 fails outside `Clean`: thread 1 has run fini-thread and is in the destructors of its
thread-specific data; thread 3 has got its record. A shootdown signal to thread 1 makes it run
fini-thread again, with thread 3's number and data. -/
theorem C12_dying_twice : ∃ s, Reach s ∧ (1, .finiThread 1 5 .cleanup) ∈ s.g.tr ∧
    (1, .finiThread 3 7 .handler) ∈ s.g.tr ∧ occursBy 1 Ev.isFiniThread (own s.g.tr) = 2 := by
  obtain ⟨s, hr, hp⟩ := exists_of_run
    (ls := recordReused ++ C 0 .exit ++ T 0 8 ++ D 1 ++ T 1 3)
    (p := fun s => decide ((1, .finiThread 1 5 .cleanup) ∈ s.g.tr ∧
    (1, .finiThread 3 7 .handler) ∈ s.g.tr ∧ occursBy 1 Ev.isFiniThread (own s.g.tr) = 2))
    (by decide +kernel)
  exact ⟨s, hr, of_decide_eq_true hp⟩

end Libmonitor.Proc
