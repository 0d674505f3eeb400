import Verif.Proc.Repeat
import Verif.Proc.Exit
import Verif.Proc.Sched
/-!
# C03: which thread may pass before fini-process has returned
-/

namespace Libmonitor.Proc

/-- C03: a thread that is let through monitor_end_process_fcn as the one that already delivers the
exit callbacks has started them, with a call of begin-process-exit; or it is the initial thread of a
child whose parent was delivering them, forked from a thread that the library does not know.

Missing: executions outside `Clean` (`C03_stale_record`). -/
theorem C03_repeat_is_winner_partial {s : S} (hs : ReachA Clean s) :
    Always repeatSpec s.g.tr := repeat_inv hs

/-- C03: when a thread reaches the real exit, _exit, exec or fatal signal through the exit functions,
then fini-process has returned, or the thread that delivers the callbacks has re-entered an exit
function (or the process inherits this from its parent). -/
theorem C03_no_exit_before_winner_partial {s : S} (hs : ReachA Clean s) :
    Always (fun old _ e => e.isHookedExit = true →
      (∃ t how, (t, .finiProcessRet how) ∈ old) ∨
      (∃ t how, (t, .resume how .again) ∈ old ∧
        ((∃ how', (t, .beginExit how') ∈ old) ∨ inheritsExit t old))) s.g.tr := by
  have h1 := (cov_inv (reach_of_reachA hs)).1
  have h2 := repeat_inv hs
  revert h1 h2
  generalize s.g.tr = tr
  intro h1 h2
  induction tr with
  | nil => trivial
  | cons x tr ih =>
    obtain ⟨u, e⟩ := x
    refine ⟨fun he => ?_, ih h1.2 h2.2⟩
    rcases h1.1 he with h | ⟨t, how, h⟩
    · exact Or.inl h
    · right
      refine ⟨t, how, h, ?_⟩
      obtain ⟨a, b, hab, hp⟩ := always_mem h2.2 h
      rw [hab, show a ++ (t, Ev.resume how .again) :: b = (a ++ [(t, Ev.resume how .again)]) ++ b by
        simp]
      exact delivers_app (hp how rfl) _

/-- Thread 1 calls exit from its fini-process callback, and both it and main, which waits, get to
the real exit. -/
example : ∃ s, ReachA Clean s ∧ s.g.tr.take 4 =
    [(0, .realExit true), (0, .resume .normal .lose), (1, .realExit true),
     (1, .resume .normal .again)] ∧ (1, .beginExit .normal) ∈ s.g.tr ∧
    occurs Ev.isFiniProcessRet s.g.tr = 0 := by
  obtain ⟨s, hr, hp⟩ := exists_of_runA (A := Clean)
    (ls := toMain ++ create1 0 70 71 9 ++ begin 1 5 ++ C 1 .exit ++ T 1 3 ++ C 0 .exit ++ T 0 2 ++
      C 1 .exit ++ T 1 4 ++ T 0 3)
    (p := fun s => decide (s.g.tr.take 4 =
    [(0, .realExit true), (0, .resume .normal .lose), (1, .realExit true),
     (1, .resume .normal .again)] ∧ (1, .beginExit .normal) ∈ s.g.tr ∧
    occurs Ev.isFiniProcessRet s.g.tr = 0)) (by decide +kernel)
  exact ⟨s, hr, of_decide_eq_true hp⟩

/-- Against C03 (and C08): an ignored thread forks while main delivers begin-process-exit; the
child's initial thread is taken for the one that delivers the callbacks and exits without any. -/
theorem C03_inherited_mark : ∃ s, ReachA Clean s ∧ (1, .realExit true) ∈ own s.g.tr ∧
    (1, .resume .normal .again) ∈ own s.g.tr ∧ (∀ e ∈ s.g.tr, e.2.isBeginExit = true → e.1 = 0) ∧
    occurs Ev.isFiniProcess s.g.tr = 0 := by
  obtain ⟨s, hr, hp⟩ := exists_of_runA (A := Clean)
    (ls := toMain ++ C 0 (.create 70 71) ++ T 0 10 ++ V 0 1 ++ T 0 1 ++
      C 0 .exit ++ T 0 3 ++ T 1 1 ++ C 1 .realFork ++ [.fork 1] ++ T 1 1 ++ C 1 .exit ++ T 1 4)
    (p := fun s => decide ((1, .realExit true) ∈ own s.g.tr ∧
    (1, .resume .normal .again) ∈ own s.g.tr ∧ (∀ e ∈ s.g.tr, e.2.isBeginExit = true → e.1 = 0) ∧
    occurs Ev.isFiniProcess s.g.tr = 0)) (by decide +kernel)
  exact ⟨s, hr, of_decide_eq_true hp⟩

end Libmonitor.Proc
