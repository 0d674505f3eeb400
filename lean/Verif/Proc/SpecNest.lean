import Verif.Proc.SpecWait
/-!
# Vocabulary of the statements about the nesting of calls and callbacks

A client keeps what belongs to a call (a timer, a stack of activities) between the call and its
return.  This is sound if, in each thread, whatever began later ends earlier.
-/

namespace Libmonitor.Proc

/-- What has a begin and an end in the history: the callbacks, and the calls of pthread_create,
fork and monitor_broadcast_signal (with their numbers). -/
inductive Span where
  | initLibrary | finiLibrary | initProcess
  | beginExit (how : How) | finiProcess (how : How)
  | support | preCreate (c : Nat) | postCreate (c : Nat) | create (c : Nat)
  | initThread | finiThread (tid : Int)
  | preFork (c : Nat) | postFork (c : Nat) | fork (c : Nat)
  | broadcast (sig : Nat)
  deriving DecidableEq, Repr

/-- The client's callbacks among them. -/
def Span.isCallback : Span → Bool
  | .create _ | .fork _ | .broadcast _ => false
  | _ => true

/-- What begins at an event, innermost first. -/
def Ev.begins : Ev → List Span
  | .initLibrary => [.initLibrary]
  | .finiLibrary => [.finiLibrary]
  | .initProcess _ => [.initProcess]
  | .beginExit how => [.beginExit how]
  | .finiProcess how _ => [.finiProcess how]
  | .createCall c _ _ => [.create c]
  | .support => [.support]
  | .preCreate c => [.preCreate c]
  | .postCreate c _ => [.postCreate c]
  | .initThread .. => [.initThread]
  | .finiThread tid _ _ => [.finiThread tid]
  | .preFork c => [.preFork c, .fork c]
  | .postFork c _ _ => [.postFork c]
  | .brCall sig => [.broadcast sig]
  | _ => []

/-- What ends at an event, innermost first.  pthread_create returns from post-create, or (the
thread is ignored) without it; fork returns from post-fork, or (in the child) without it. -/
def Ev.ends : Ev → List (List Span)
  | .initLibraryRet => [[.initLibrary]]
  | .finiLibraryRet => [[.finiLibrary]]
  | .initProcessRet _ => [[.initProcess]]
  | .beginExitRet how => [[.beginExit how]]
  | .finiProcessRet how => [[.finiProcess how]]
  | .supportRet => [[.support]]
  | .preCreateRet c _ => [[.preCreate c]]
  | .createRet c => [[.postCreate c, .create c], [.create c]]
  | .initThreadRet .. => [[.initThread]]
  | .finiThreadRet tid => [[.finiThread tid]]
  | .preForkRet c _ => [[.preFork c]]
  | .forkRet c ret => if ret = 0 then [[.fork c]] else [[.postFork c, .fork c]]
  | .brRet sig _ => [[.broadcast sig]]
  | _ => []

/-- Of a list of what is open, what is left after an event. -/
def Ev.effect (e : Ev) (l : List Span) : List Span :=
  match e.ends.find? (fun p => p.isPrefixOf l) with
  | some p => l.drop p.length
  | none => e.begins ++ l

/-- What thread `t` has begun and not ended, innermost first.  In the child of a fork, the other
threads do not exist. -/
def opened : Hist → Tid → List Span
  | [], _ => []
  | (u, e) :: old, t =>
    if u = t then e.effect (opened old t) else if e.isForked then [] else opened old t

/-- What ends at an event is the innermost of what its thread has begun and not ended. -/
def nestSpec (old : Hist) (t : Tid) (e : Ev) : Prop :=
  e.ends ≠ [] → ∃ p ∈ e.ends, p <+: opened old t

/-- No thread is ended (pthread_exit, cancellation) inside a call or callback. -/
def EndsOutside (s : S) : Lbl → Prop
  | .step t .unwind => opened s.g.tr t = []
  | .step t (.go _ _) =>
    (s.th t).head? = some .px0 ∨ (s.th t).head? = some .px1 → opened s.g.tr t = []
  | _ => True

instance (s : S) (l : Lbl) : Decidable (EndsOutside s l) := by
  unfold EndsOutside; split <;> infer_instance

/-- The application's own code. -/
def Frame.ofApp : Frame → Bool
  | .app | .start | .mainApp | .btApp _ | .ignApp | .tdtor | .realExit => true
  | _ => false

/-- A signal handler: of application or client, or the library's for the shootdown signal. -/
def Frame.handler (f : Frame) : Bool := decide (f = .app) || f.isH

/-- No signal handler begins in a thread that is inside the list lock. -/
def UnlockedHandlers (s : S) : Lbl → Prop
  | .step t .deliver | .step t .interrupt => ∀ f ∈ (s.th t).head?, f.inLock = false
  | _ => True

instance (s : S) (l : Lbl) : Decidable (UnlockedHandlers s l) := by
  unfold UnlockedHandlers; split <;> infer_instance

/-- The thread of a step. -/
def Lbl.by_ : Lbl → Tid
  | .step t _ | .fork t => t

/-- Who holds the list lock after a step, given who held it before. -/
def holder (s : S) (l : Lbl) (s' : S) (o : Option Tid) : Option Tid :=
  if s'.g.lock then (if s.g.lock then o else some l.by_) else none

/-- Reachable states, with the thread that holds the list lock: the one whose step took it. -/
inductive ReachO (A : S → Lbl → Prop) : S → Option Tid → Prop
  | init : ReachO A {} none
  | next {s s' : S} {o : Option Tid} {l : Lbl} : ReachO A s o → A s l → next s l = some s' →
      ReachO A s' (holder s l s' o)

/-- Running a schedule, with the thread that holds the lock. -/
def runO (A : S → Lbl → Prop) [∀ s l, Decidable (A s l)] : S → Option Tid → List Lbl →
    Option (S × Option Tid)
  | s, o, [] => some (s, o)
  | s, o, l :: ls =>
    if A s l then (next s l).bind (fun s' => runO A s' (holder s l s' o) ls) else none

end Libmonitor.Proc
