import Verif.Proc.Spec
/-!
# Vocabulary of the statements about threads that wait for each other

The library makes a thread wait in three places: for the list lock (pthread.c:529, 422, 406,
365), for the thread that delivers the exit callbacks (main.c:336-339), and, in the latter
thread, for the fini-thread calls of the others (pthread.c:579-617).
-/

namespace Libmonitor.Proc

/-- Inside the list lock. -/
def Frame.inLock : Frame → Bool
  | .sd2 | .ul1 _ | .bt2 _ | .mk1 .. | .br1 .. | .brKill .. | .br2 _ => true
  | _ => false

/-- Delivers the exit callbacks: has won the race, has not yet released the others. -/
def Frame.inEnd : Frame → Bool
  | .ep2 .. | .epBegin _ | .epFini0 _ | .epFini _ | .epDone _ .win => true
  | _ => false

/-- Inside monitor_fini_thread, called for the record. -/
def Frame.inFini : Frame → Option NodeId
  | .finCb n _ _ => some n
  | _ => none

/-- Takes the list lock. -/
def Frame.wantsLock : Frame → Bool
  | .sd1 | .ul0 _ | .bt1 _ | .mk0 .. => true
  | _ => false

def Frame.isEpWait : Frame → Bool
  | .epWait _ => true
  | _ => false

/-- In the loop that waits for the fini-thread calls. -/
def Frame.polls : Frame → Bool
  | .sdScan .. | .sdKill .. | .sdScan2 .. => true
  | _ => false

/-- A record for which the loop of thread `t` does not end: fini-thread has begun, not ended. -/
def awaited (g : G) (t : Tid) (n : NodeId) : Bool :=
  decide ((g.nodes n).self ≠ some t) && (g.nodes n).appl && (g.nodes n).finiS &&
    !(g.nodes n).finiD

/-- The innermost call of the thread. -/
def top (s : S) (t : Tid) (p : Frame → Bool) : Prop := ∃ f ∈ (s.th t).head?, p f = true

def inStack (s : S) (t : Tid) (p : Frame → Bool) : Prop := ∃ f ∈ s.th t, p f = true

/-- Thread `t` has to wait. -/
def blocked (s : S) (t : Tid) : Prop :=
  (top s t Frame.wantsLock ∧ s.g.lock = true) ∨
  (top s t Frame.isEpWait ∧ s.g.finiProcDone = false) ∨
  (top s t Frame.polls ∧ ∃ n ∈ s.g.list, awaited s.g t n = true)

/-- Thread `t` has to wait until thread `u` has done what it is doing. -/
inductive waitsFor (s : S) (t u : Tid) : Prop
  | lock (ht : top s t Frame.wantsLock) (hl : s.g.lock = true) (hu : inStack s u Frame.inLock)
  | exit (ht : top s t Frame.isEpWait) (hd : s.g.finiProcDone = false)
      (hu : inStack s u Frame.inEnd)
  | fini (ht : top s t Frame.polls) (n : NodeId) (hn : n ∈ s.g.list)
      (ha : awaited s.g t n = true) (hu : inStack s u (fun f => decide (f.inFini = some n)))

/-- One or more times. -/
inductive waitsOn (s : S) : Tid → Tid → Prop
  | one {t u : Tid} (h : waitsFor s t u) : waitsOn s t u
  | more {t u w : Tid} (h : waitsFor s t u) (r : waitsOn s u w) : waitsOn s t w

/-- Something other threads may wait for. -/
def Frame.duty (f : Frame) : Bool := f.inLock || f.inEnd || f.inFini.isSome

/-- Functions that enter exit processing, and pthread_exit. -/
def Api.leaves : Api → Bool
  | .exit | .uexit | .err | .exec true | .fatal _ | .pthreadExit => true
  | _ => false

def Api.isCreate : Api → Bool
  | .create .. => true
  | _ => false

def Frame.isBpFlags : Frame → Bool
  | .bpFlags _ => true
  | _ => false

/-- A thread that holds the list lock, delivers the exit callbacks, or is in fini-thread

* is not ended (by cancellation or pthread_exit) and does not enter an exit function,
* does not call pthread_create (in a signal handler) if it holds the lock,
* has no other thread forking meanwhile;

and no process begins once exit processing has begun. -/
def Orderly (s : S) : Lbl → Prop
  | .step t .unwind => ∀ f ∈ s.th t, f.duty = false
  | .step t (.call a) => (a.leaves = true → ∀ f ∈ s.th t, f.duty = false) ∧
      (a.isCreate = true → ∀ f ∈ s.th t, f.inLock = false)
  | .step t (.go ..) => ∀ f ∈ (s.th t).head?, f.isBpFlags = true → s.g.cookie = false
  | .fork t => ∀ u, u < s.g.nextTid → u ≠ t → ∀ f ∈ s.th u, f.duty = false
  | _ => True

instance (s : S) (l : Lbl) : Decidable (Orderly s l) := by
  unfold Orderly; split <;> infer_instance

end Libmonitor.Proc
