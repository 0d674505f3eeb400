import Verif.Proc.Model
/-!
# Vocabulary of the statements about processes and threads

Statements speak about the history of a process: the list of events, latest first.
-/

namespace Libmonitor.Proc

abbrev Hist := List (Tid × Ev)

def Ev.isForked : Ev → Bool
  | .forked _ => true
  | _ => false

/-- The part of the history that belongs to this process (not to its ancestors). -/
def own : Hist → Hist
  | [] => []
  | (t, e) :: old => if e.isForked then [] else (t, e) :: own old

/-- Every event stands in relation `P` to the events before it. -/
def Always (P : Hist → Tid → Ev → Prop) : Hist → Prop
  | [] => True
  | (t, e) :: old => P old t e ∧ Always P old

/-- How often events of a kind occur. -/
def occurs (p : Ev → Bool) (tr : Hist) : Nat := tr.countP (fun e => p e.2)

def Ev.isFiniProcess : Ev → Bool
  | .finiProcess .. => true
  | _ => false

def Ev.isBeginExit : Ev → Bool
  | .beginExit _ => true
  | _ => false

def Ev.isInitProcess : Ev → Bool
  | .initProcess _ => true
  | _ => false

/-- The process is about to be ended by the real exit, _exit, exec or a signal, after the exit
functions of the library have been called. -/
def Ev.isHookedExit : Ev → Bool
  | .realExit hooked | .realUExit hooked | .realExec hooked => hooked
  | .realRaise => true
  | _ => false

def Ev.isFiniProcessRet : Ev → Bool
  | .finiProcessRet _ => true
  | _ => false

/-- monitor_end_process_fcn treats the caller as the thread that delivers the callbacks. -/
def Ev.isAgain : Ev → Bool
  | .resume _ .again => true
  | _ => false

/-- How the process was made: `none`: started normally, `some real`: by fork / monitor_real_fork. -/
def startedBy : Hist → Option Bool
  | [] => none
  | (_, .forked real) :: _ => some real
  | _ :: old => startedBy old

/-- Thread callbacks and start routines. -/
def Ev.isThreadStart : Ev → Bool
  | .support | .preCreate _ | .initThread .. | .start .. => true
  | _ => false

/-- A call of monitor_begin_process_fcn that is going to call init-process. -/
def Frame.pendingInit : Frame → Bool
  | .bp0 isFork _ => isFork
  | .bpReset _ | .bpFlags _ | .bpCall _ => true
  | _ => false

/-- The value last given to main's data: init-process's return value, or what the reset in a
child left there; 0 at first. -/
def lastData : Hist → Data
  | [] => 0
  | (_, .initProcessRet v) :: _ => v
  | (_, .childReset d) :: _ => d
  | (_, .realReset d) :: _ => d
  | _ :: old => lastData old

def Ev.isInitProcessRet : Ev → Bool
  | .initProcessRet _ => true
  | _ => false

def Ev.isInitLibrary : Ev → Bool
  | .initLibrary => true
  | _ => false

def Ev.isFiniLibrary : Ev → Bool
  | .finiLibrary => true
  | _ => false

/-- Events of the call of fork number `c`. -/
def Ev.isPreFork (c : Nat) : Ev → Bool
  | .preFork c' => decide (c' = c)
  | _ => false

def Ev.isPostFork (c : Nat) : Ev → Bool
  | .postFork c' _ _ => decide (c' = c)
  | _ => false

def Ev.isForkRet (c : Nat) : Ev → Bool
  | .forkRet c' _ => decide (c' = c)
  | _ => false

/-- The child's part of fork: after pre-fork returned `d` the real fork made this process, and then
init-process was called with `d` and has returned. -/
def childBegun (t : Tid) (c : Nat) (old : Hist) : Prop :=
  ∃ d v a b b' r, old = a ++ (t, .initProcessRet v) :: b ++ (t, .initProcess d) :: b' ++
    (t, .forked false) :: r ∧ (t, .preForkRet c d) ∈ r

end Libmonitor.Proc
