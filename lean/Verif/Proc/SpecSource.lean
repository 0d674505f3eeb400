import Verif.Proc.Spec
/-!
# Where the client's data come from: vocabulary of C85
-/

namespace Libmonitor.Proc

/-- NULL, or returned by monitor_pre_fork. -/
def FromFork (h : Hist) (d : Data) : Prop := d = 0 ∨ ∃ u c, (u, Ev.preForkRet c d) ∈ h

/-- NULL, or returned by monitor_pre_fork or monitor_init_process. -/
def FromProc (h : Hist) (d : Data) : Prop := FromFork h d ∨ ∃ u, (u, Ev.initProcessRet d) ∈ h

/-- NULL, or returned by monitor_thread_pre_create or monitor_init_thread. -/
def FromThread (h : Hist) (d : Data) : Prop :=
  d = 0 ∨ (∃ u c, (u, Ev.preCreateRet c d) ∈ h) ∨ ∃ u i, (u, Ev.initThreadRet i d) ∈ h

/-- What each event says about the client's data was said before by the client.  In the child of
monitor_real_fork the data of the thread that called it become those of the process (`realReset`). -/
def sourced (old : Hist) (_t : Tid) : Ev → Prop
  | .initProcess d | .childReset d => FromFork old d
  | .finiProcess _ d => FromProc old d ∨ ∃ u, (u, Ev.realReset d) ∈ old
  | .postFork c _ d => ∃ u, (u, Ev.preForkRet c d) ∈ old
  | .spawn c _ _ _ _ d => ∃ u, (u, Ev.preCreateRet c d) ∈ old
  | .initThread _ d | .postCreate _ d => FromThread old d
  | .finiThread _ d _ | .gotData d | .realReset d => FromThread old d ∨ FromProc old d
  | _ => True

/-- The default callbacks (callback.c:30-35, 43-60, 86-91, 105-110): NULL before fork and before the
creation of a thread, and otherwise what was passed. -/
def byDefault (old : Hist) (_t : Tid) : Ev → Prop
  | .preForkRet _ d | .preCreateRet _ d => d = 0
  | .initProcessRet d => ∃ u, (u, Ev.initProcess d) ∈ old
  | .initThreadRet _ d => ∃ u i, (u, Ev.initThread i d) ∈ old
  | _ => True

/-- The client's data in an event. -/
def Ev.datum : Ev → Option Data
  | .initProcess d | .initProcessRet d | .finiProcess _ d | .preCreateRet _ d | .postCreate _ d
  | .spawn _ _ _ _ _ d | .initThread _ d | .initThreadRet _ d | .finiThread _ d _ | .preForkRet _ d
  | .postFork _ _ d | .childReset d | .realReset d | .gotData d => some d
  | _ => none

end Libmonitor.Proc
