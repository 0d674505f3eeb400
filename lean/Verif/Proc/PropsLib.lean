import Verif.Proc.Lib
import Verif.Proc.Sched
/-!
# C07: the library callbacks
-/

namespace Libmonitor.Proc

/-- C07, first half: init-library is started at most once in a process, its ancestors included
(children of fork inherit the loaded library). -/
theorem C07_init_library_once {s : S} (hs : Reach s) : occurs Ev.isInitLibrary s.g.tr ≤ 1 := by
  obtain ⟨h0, h2⟩ := oneTok_initLib hs
  cases hc : s.g.beginLibRun with
  | false => have := (h0 hc).1; simp only at this; omega
  | true => obtain ⟨w, _, h⟩ := h2 hc; simp only at h; omega

/-- C07, second half: fini-library is started at most once in a process, in executions in which
monitor_end_library_fcn is entered only after the process start and never while another call of it
is in progress, and the callback is not left by ending its thread.  Missing: those executions;
the claim fails there (`C07_two_threads`, `C07_recursion`, `C07_late_start`). -/
theorem C07_fini_library_once_partial {s : S} (hs : ReachA QuietLib s) :
    occurs Ev.isFiniLibrary (own s.g.tr) ≤ 1 := by
  have h : finiLibs s.g ≤ 1 := by rcases lib_inv hs with h | ⟨h, _⟩ <;> omega
  exact h

/-- Two threads call _exit; the second gets through monitor_end_process_fcn and starts
fini-library while the first is still in the callback, because the flag is set only after the
callback has returned. -/
theorem C07_two_threads : ∃ s, Reach s ∧
    occurs Ev.isFiniLibrary (own s.g.tr) = 2 ∧ (0, .finiLibrary) ∈ s.g.tr ∧
    (1, .finiLibrary) ∈ s.g.tr := by
  obtain ⟨s, hr, hp⟩ := exists_of_run
    (ls := toMain ++ create1 0 70 71 9 ++ begin 1 5 ++ C 1 .uexit ++ T 1 3 ++ C 0 .uexit ++ T 0 2 ++
      T 1 9 ++ D 0 ++ T 0 3 ++ F 1 ++ T 1 13 ++ T 0 4)
    (p := fun s => decide (occurs Ev.isFiniLibrary (own s.g.tr) = 2 ∧ (0, .finiLibrary) ∈ s.g.tr ∧
      (1, .finiLibrary) ∈ s.g.tr)) (by decide +kernel)
  exact ⟨s, hr, of_decide_eq_true hp⟩

/-- The client calls _exit from its fini-library callback and gets the callback again. -/
theorem C07_recursion : ∃ s, Reach s ∧ occurs Ev.isFiniLibrary (own s.g.tr) = 2 ∧
    ∀ e ∈ s.g.tr, e.1 = 0 := by
  obtain ⟨s, hr, hp⟩ := exists_of_run
    (ls := toMain ++ C 0 .uexit ++ T 0 10 ++ C 0 .uexit ++ T 0 5)
    (p := fun s => decide (occurs Ev.isFiniLibrary (own s.g.tr) = 2 ∧ ∀ e ∈ s.g.tr, e.1 = 0))
    (by decide +kernel)
  exact ⟨s, hr, of_decide_eq_true hp⟩

/-- A constructor's exec fails before the process start: fini-library ran, the process start
clears the flag, and the callback runs again at exit. -/
theorem C07_late_start : ∃ s, Reach s ∧ occurs Ev.isFiniLibrary (own s.g.tr) = 2 ∧
    ∀ e ∈ s.g.tr, e.1 = 0 := by
  obtain ⟨s, hr, hp⟩ := exists_of_run
    (ls := C 0 (.exec true) ++ T 0 11 ++ F 0 ++ toMain ++ C 0 .exit ++ T 0 6)
    (p := fun s => decide (occurs Ev.isFiniLibrary (own s.g.tr) = 2 ∧ ∀ e ∈ s.g.tr, e.1 = 0))
    (by decide +kernel)
  exact ⟨s, hr, of_decide_eq_true hp⟩

/-- A quiet execution: an exec that fails, after which the process exits: once each. -/
example : ∃ s, ReachA QuietLib s ∧ occurs Ev.isFiniLibrary (own s.g.tr) = 1 ∧
    occurs Ev.isInitLibrary s.g.tr = 1 ∧ (0, .realExit true) ∈ s.g.tr := by
  obtain ⟨s, hr, hp⟩ := exists_of_runA (A := QuietLib)
    (ls := toMain ++ C 0 (.exec true) ++ T 0 11 ++ F 0 ++ C 0 .exit ++ T 0 6)
    (p := fun s => decide (occurs Ev.isFiniLibrary (own s.g.tr) = 1 ∧
      occurs Ev.isInitLibrary s.g.tr = 1 ∧ (0, .realExit true) ∈ s.g.tr)) (by decide +kernel)
  exact ⟨s, hr, of_decide_eq_true hp⟩

end Libmonitor.Proc
