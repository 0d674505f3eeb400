import Verif.Proc.Spec
/-!
# Vocabulary of the statements about threads
-/

namespace Libmonitor.Proc

/-- The initial thread of the process: 0, or the thread that called fork. -/
def mainOf : Hist → Tid
  | [] => 0
  | (t, e) :: old => if e.isForked then t else mainOf old

/-- The real fork has just returned in the child, whose thread list is not yet reset. -/
def born : Hist → Bool
  | [] => false
  | (_, e) :: _ => e.isForked

/-- The child's frames before the reset of the thread list. -/
def Frame.resetting : Frame → Bool
  | .bp0 isFork _ => isFork
  | .bpReset _ | .rfReset => true
  | _ => false

/-- Inside pthread_create, before the new thread exists. -/
def Frame.making : Frame → Bool
  | .pc1 .. | .pc2 .. | .pc3 .. | .pc4 .. | .pcSup0 .. | .pcSup1 .. | .pcSup .. | .pc5 ..
  | .pcPre .. | .mk0 .. | .mk1 ..
  | .pc6 .. | .pcStack .. | .pc7 .. | .pcIgn .. => true
  | _ => false

/-- The record of a created thread in the frames of monitor_begin_thread and of the cleanup
routine. -/
def Frame.thr : Frame → Option NodeId
  | .bt0 n | .bt1 n | .bt2 n | .bt3 n | .btInit n | .bt4 n | .bt5 n | .btApp n | .cl0 n
  | .ul0 n | .ul1 n => some n
  | .fin0 n src | .finCb n src _ => if src = .cleanup then some n else none
  | _ => none

def Frame.isBtApp : Frame → Bool
  | .btApp _ => true
  | _ => false

/-- A call that has looked up the calling thread's record. -/
def Frame.holds : Frame → Option NodeId
  | .ep1 _ tn | .ep2 _ tn => tn
  | .pc3 _ my .. => my
  | .pc4 _ my .. | .pcSup0 _ my .. | .pcSup1 _ my .. | .pcSup _ my .. | .pc5 _ my ..
  | .pcPre _ my .. | .mk0 _ my .. | .mk1 _ my ..
  | .pc6 _ my .. | .pcStack _ my .. | .pc7 _ my .. | .pc8 _ my .. | .pcPost _ my => some my
  | .sdScan my .. | .sdKill my .. | .sdScan2 my .. | .sdDone my | .sdMy my => my
  | .fin0 n src | .finCb n src _ => if src = .cleanup then none else some n
  | _ => none

/-- The exit cleanup's walk over the thread list. -/
def Frame.scanning : Frame → Bool
  | .sdScan .. | .sdKill .. | .sdScan2 .. => true
  | _ => false

/-- Calls during which a fork does not confuse the child: not pthread_create before the new thread
exists, not the library's part of a created thread (its start routine is allowed), not the walk
over the thread list, and no call that remembers the record of a created thread. -/
def Frame.forkOk (f : Frame) : Bool :=
  !f.making && (f.thr.isNone || f.isBtApp) && !f.scanning && !f.resetting &&
    (f.holds.isNone || decide (f.holds = some .main))

/-- A created thread that has left its cleanup routine (or never got to its start routine) and is
in the destructors of its thread-specific data. -/
def gone (s : S) (t : Tid) : Bool :=
  decide (s.th t = [.tdtor]) && (match s.g.tsd t with | some (.slot _ _) => true | _ => false)

/-- The child's initial thread, if it was a created thread in the parent: the parent's start routine
is below the call of fork. -/
def orphan (s : S) (t : Tid) : Bool :=
  decide (t = mainOf s.g.tr) && (s.th t).any Frame.isBtApp

/-- Executions in which
* fork is called outside the calls named in `forkOk`;
* no signal handler runs in a child before its thread list is reset;
* a created thread past its cleanup routine makes no calls and gets no signals;
* the initial thread of a child does not leave the start routine it had in the parent. -/
def Clean (s : S) : Lbl → Prop
  | .fork t => ∀ f ∈ s.th t, f.forkOk = true
  | .step t .interrupt => born s.g.tr = false ∧ gone s t = false
  | .step t .deliver => born s.g.tr = false ∧ gone s t = false
  | .step t (.call _) => gone s t = false
  | .step t .unwind => orphan s t = false
  | .step t (.go ok _) => (gone s t = true → ok = true) ∧
    (orphan s t = true → ∀ f ∈ (s.th t).head?, f ≠ .px0 ∧ f ≠ .px1 ∧ f.isBtApp = false)

instance (s : S) (l : Lbl) : Decidable (Clean s l) := by
  unfold Clean; split <;> infer_instance

end Libmonitor.Proc
