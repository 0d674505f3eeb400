import Verif.Proc.Data
import Verif.Proc.Sched
/-!
# C06: the data of fini-process
-/

namespace Libmonitor.Proc

/-- C06 in every execution: fini-process receives the value last stored in main's record, which is
what init-process returned last, or, in a child that has not been through init-process since, what
the reset after fork left there; 0 if nothing of that happened. -/
theorem C06_fini_process_data {s : S} (hs : Reach s) :
    Always (fun old _ e => ∀ how d, e = .finiProcess how d → d = lastData old) s.g.tr :=
  (lastData_inv hs).2

/-- C06: if init-process has returned in this process, fini-process receives the value it
returned, in executions in which no thread forks while it is in monitor_begin_process_fcn and no
signal handler runs in a child before its first instruction.  Missing: those executions
(`C06_fork_in_init_process`), and processes in which init-process has not returned
(`C06_exit_in_init_process`, `C06_real_fork`). -/
theorem C06_fini_process_data_partial {s : S} (hs : ReachA QuietInit s) :
    Always (fun old _ e => ∀ how d, e = .finiProcess how d →
      ∀ u v, (u, .initProcessRet v) ∈ own old → d = v) s.g.tr :=
  (dataInit_inv hs).1

/-- The client calls exit from its init-process callback: fini-process receives the 0 that was
passed to init-process. -/
theorem C06_exit_in_init_process : ∃ s, Reach s ∧ (0, .initProcess 0) ∈ s.g.tr ∧
    (0, .finiProcess .normal 0) ∈ s.g.tr ∧ occurs Ev.isInitProcessRet s.g.tr = 0 := by
  obtain ⟨s, hr, hp⟩ := exists_of_run (ls := T 0 6 ++ C 0 .exit ++ T 0 6)
    (p := fun s => decide ((0, .initProcess 0) ∈ s.g.tr ∧ (0, .finiProcess .normal 0) ∈ s.g.tr ∧
      occurs Ev.isInitProcessRet s.g.tr = 0)) (by decide +kernel)
  exact ⟨s, hr, of_decide_eq_true hp⟩

/-- A thread calls monitor_real_fork, and its child exits: fini-process in the child receives the
value that init-thread returned in the parent (5), not the one init-process returned there (4). -/
theorem C06_real_fork : ∃ s, Reach s ∧ (0, .initProcessRet 4) ∈ s.g.tr ∧
    (1, .initThreadRet 1 5) ∈ s.g.tr ∧ (1, .finiProcess .normal 5) ∈ own s.g.tr := by
  obtain ⟨s, hr, hp⟩ := exists_of_run
    (ls := T 0 6 ++ V 0 4 ++ T 0 2 ++ create1 0 70 71 9 ++ begin 1 5 ++ C 1 .realFork ++
      [.fork 1] ++ T 1 1 ++ C 1 .exit ++ T 1 6)
    (p := fun s => decide ((0, .initProcessRet 4) ∈ s.g.tr ∧
      (1, .initThreadRet 1 5) ∈ s.g.tr ∧ (1, .finiProcess .normal 5) ∈ own s.g.tr))
    (by decide +kernel)
  exact ⟨s, hr, of_decide_eq_true hp⟩

/-- The client forks from its init-process callback: in the child init-process is started once and
returns 7, then the callback of the parent returns there, too, with 8, and fini-process receives
8. -/
theorem C06_fork_in_init_process : ∃ s, Reach s ∧ occurs Ev.isInitProcess (own s.g.tr) = 1 ∧
    (0, .initProcessRet 7) ∈ own s.g.tr ∧ (0, .finiProcess .normal 8) ∈ own s.g.tr := by
  obtain ⟨s, hr, hp⟩ := exists_of_run
    (ls := T 0 6 ++ C 0 .fork ++ T 0 2 ++ [.fork 0] ++ T 0 5 ++ V 0 7 ++ T 0 1 ++ V 0 8 ++ T 0 2 ++
      C 0 .exit ++ T 0 6)
    (p := fun s => decide (occurs Ev.isInitProcess (own s.g.tr) = 1 ∧
      (0, .initProcessRet 7) ∈ own s.g.tr ∧ (0, .finiProcess .normal 8) ∈ own s.g.tr))
    (by decide +kernel)
  exact ⟨s, hr, of_decide_eq_true hp⟩

/-- A quiet execution: a thread forks, init-process returns 3 in the child, the child creates a
thread, which exits; fini-process receives 3. -/
example : ∃ s, ReachA QuietInit s ∧ (1, .initProcessRet 3) ∈ own s.g.tr ∧
    (2, .finiProcess .normal 3) ∈ own s.g.tr := by
  obtain ⟨s, hr, hp⟩ := exists_of_runA (A := QuietInit)
    (ls := toMain ++ create1 0 70 71 9 ++ begin 1 5 ++ C 1 .fork ++ T 1 2 ++ [.fork 1] ++ T 1 5 ++
      V 1 3 ++ T 1 1 ++ C 1 (.create 80 81) ++ T 1 7 ++ V 1 9 ++ T 1 7 ++ begin 2 6 ++ C 2 .exit ++
      T 2 11 ++ D 1 ++ T 1 3 ++ F 2 ++ T 2 10)
    (p := fun s => decide ((1, .initProcessRet 3) ∈ own s.g.tr ∧
      (2, .finiProcess .normal 3) ∈ own s.g.tr)) (by decide +kernel)
  exact ⟨s, hr, of_decide_eq_true hp⟩

end Libmonitor.Proc
