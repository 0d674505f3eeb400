import Verif.Proc.Start
import Verif.Proc.Sched
/-!
# C04, C05: process start
-/

namespace Libmonitor.Proc

/-- C04: init-process is started at most once in a process, in executions in which no thread forks
while it is between the decision to call init-process and the call, and no signal handler runs in
a child of fork before the first instruction of monitor_begin_process_fcn.  Missing: those
executions, where the claim fails (`C04_fork_in_init_library`, `C04_handler_in_child`). -/
theorem C04_init_process_once_partial {s : S} (hs : ReachA QuietFork s) :
    occurs Ev.isInitProcess (own s.g.tr) ≤ 1 := by
  rcases init_inv hs with ⟨h0, h1⟩ | ⟨_, _, _, _, _, _, h⟩
  · cases hc : s.g.initCalled with
    | false => have := (h0 hc).1; simp only [usedInit] at this; omega
    | true => obtain ⟨w, _, h⟩ := h1 hc; simp only [usedInit] at h; omega
  · simp only [usedInit] at h; omega

/-- C04 fails when the client forks from its init-library callback: the child gets init-process
from the fork and again from the call of monitor_begin_process_fcn it is in. -/
theorem C04_fork_in_init_library : ∃ s, Reach s ∧
    occurs Ev.isInitProcess (own s.g.tr) = 2 ∧ startedBy s.g.tr = some false := by
  obtain ⟨s, hr, hp⟩ := exists_of_run
    (ls := T 0 4 ++ C 0 .fork ++ T 0 2 ++ [.fork 0] ++ T 0 9)
    (p := fun s => decide (occurs Ev.isInitProcess (own s.g.tr) = 2 ∧
      startedBy s.g.tr = some false)) (by decide +kernel)
  exact ⟨s, hr, of_decide_eq_true hp⟩

/-- C04 fails when a constructor forks before the process start and a signal handler in the child
calls monitor_initialize first: the child's own call passes the test regardless. -/
theorem C04_handler_in_child : ∃ s, Reach s ∧
    occurs Ev.isInitProcess (own s.g.tr) = 2 ∧ startedBy s.g.tr = some false := by
  obtain ⟨s, hr, hp⟩ := exists_of_run
    (ls := C 0 .fork ++ T 0 2 ++ [.fork 0] ++ I 0 ++ C 0 .initialize ++ T 0 7 ++ T 0 5)
    (p := fun s => decide (occurs Ev.isInitProcess (own s.g.tr) = 2 ∧
      startedBy s.g.tr = some false)) (by decide +kernel)
  exact ⟨s, hr, of_decide_eq_true hp⟩

/-- A quiet execution: main creates a thread, the thread forks, the child gets init-process and
forks again. -/
example : ∃ s, ReachA QuietFork s ∧ occurs Ev.isInitProcess (own s.g.tr) = 1 ∧
    occurs Ev.isInitProcess s.g.tr = 3 := by
  obtain ⟨s, hr, hp⟩ := exists_of_runA (A := QuietFork)
    (ls := toMain ++ create1 0 70 71 9 ++ begin 1 5 ++ C 1 .fork ++ T 1 2 ++ [.fork 1] ++ T 1 7 ++
      C 1 .fork ++ T 1 2 ++ [.fork 1] ++ T 1 7)
    (p := fun s => decide (occurs Ev.isInitProcess (own s.g.tr) = 1 ∧
      occurs Ev.isInitProcess s.g.tr = 3)) (by decide +kernel)
  exact ⟨s, hr, of_decide_eq_true hp⟩

/-- C05: in a process started normally or by fork, init-thread-support, pre-create, init-thread
and start routines begin only after init-process was started, in executions in which a thread that
has decided to call init-process does not, until then, create threads or end itself.  Missing:
those executions, where the claim fails (`C05_create_in_init_library`). -/
theorem C05_init_process_first_partial {s : S} (hs : ReachA QuietStart s) :
    Always (fun old _ e => e.isThreadStart = true →
      (∃ u d, (u, .initProcess d) ∈ own old) ∨ startedBy old = some true) s.g.tr :=
  (start_inv hs).1

/-- C05 fails when the client creates a thread from its init-library callback. -/
theorem C05_create_in_init_library : ∃ s, Reach s ∧
    (1, .start 70 71) ∈ s.g.tr ∧ startedBy s.g.tr = none ∧
    occurs Ev.isInitProcess s.g.tr = 0 := by
  obtain ⟨s, hr, hp⟩ := exists_of_run
    (ls := T 0 4 ++ create1 0 70 71 9 ++ begin 1 5)
    (p := fun s => decide ((1, .start 70 71) ∈ s.g.tr ∧ startedBy s.g.tr = none ∧
      occurs Ev.isInitProcess s.g.tr = 0)) (by decide +kernel)
  exact ⟨s, hr, of_decide_eq_true hp⟩

/-- The exception for monitor_real_fork is needed: its child creates threads without
init-process. -/
theorem C05_real_fork_child : ∃ s, Reach s ∧
    (1, .start 70 71) ∈ own s.g.tr ∧ occurs Ev.isInitProcess (own s.g.tr) = 0 := by
  obtain ⟨s, hr, hp⟩ := exists_of_run
    (ls := toMain ++ C 0 .realFork ++ [.fork 0] ++ T 0 1 ++ create1 0 70 71 9 ++ begin 1 5)
    (p := fun s => decide ((1, .start 70 71) ∈ own s.g.tr ∧
      occurs Ev.isInitProcess (own s.g.tr) = 0)) (by decide +kernel)
  exact ⟨s, hr, of_decide_eq_true hp⟩

/-- A constructor creates a thread before the process start: pthread_create starts init-process,
the thread runs, and main's own start does not repeat it. -/
example : ∃ s, ReachA QuietStart s ∧ (1, .start 70 71) ∈ s.g.tr ∧ (0, .appMain) ∈ s.g.tr ∧
    occurs Ev.isInitProcess s.g.tr = 1 := by
  obtain ⟨s, hr, hp⟩ := exists_of_runA (A := QuietStart)
    (ls := C 0 (.create 70 71) ++ T 0 15 ++ V 0 9 ++ T 0 7 ++ begin 1 5 ++ T 0 4)
    (p := fun s => decide ((1, .start 70 71) ∈ s.g.tr ∧ (0, .appMain) ∈ s.g.tr ∧
      occurs Ev.isInitProcess s.g.tr = 1)) (by decide +kernel)
  exact ⟨s, hr, of_decide_eq_true hp⟩

end Libmonitor.Proc
