import Verif.Proc.SpecThread
/-!
# Vocabulary of the statements about the life of a thread
-/

namespace Libmonitor.Proc

/-- How often thread `u` did something of a kind. -/
def occursBy (u : Tid) (p : Ev → Bool) (tr : Hist) : Nat :=
  tr.countP (fun e => decide (e.1 = u) && p e.2)

def Ev.isInitThread : Ev → Bool
  | .initThread .. => true
  | _ => false

def Ev.isInitThreadRet : Ev → Bool
  | .initThreadRet .. => true
  | _ => false

def Ev.isStart : Ev → Bool
  | .start .. => true
  | _ => false

def Ev.isRefused : Ev → Bool
  | .refused => true
  | _ => false

def Ev.isLinked : Ev → Bool
  | .linked _ => true
  | _ => false

def Ev.isFiniThread : Ev → Bool
  | .finiThread .. => true
  | _ => false

def Ev.isShootdown : Ev → Bool
  | .shootdown => true
  | _ => false

/-- The call number `c` of pthread_create makes a thread. -/
def Ev.isSpawn (c : Nat) : Ev → Bool
  | .spawn c' .. | .spawnIgn c' .. => decide (c' = c)
  | _ => false

def Ev.isPreCreate (c : Nat) : Ev → Bool
  | .preCreate c' => decide (c' = c)
  | _ => false

def Ev.isPostCreate (c : Nat) : Ev → Bool
  | .postCreate c' _ => decide (c' = c)
  | _ => false

/-- Thread `u` was made: the thread that called pthread_create, the call's number, the start routine
and its argument; `some d`: with the value `d` from pre-create, `none`: as an ignored thread. -/
def madeBy (tr : Hist) (u w : Tid) (c st ar : Nat) : Option Data → Prop
  | some d => ∃ n, (w, .spawn c u n st ar d) ∈ tr
  | none => (w, .spawnIgn c u st ar) ∈ tr

/-- The last of the calls of monitor_disable_new_threads and monitor_enable_new_threads in thread
`t` was the former, and at that time the thread was known to the library: main, or on the list.  (A
call in a signal handler before that has no effect.)  Fork keeps what main did. -/
def disabled (t : Tid) : Hist → Bool
  | [] => false
  | (u, .ignoring b) :: old =>
    if u = t then
      b && (decide (t = mainOf old) || old.any (fun e => decide (e.1 = t) && e.2.isLinked))
    else disabled t old
  | (u, .forked _) :: old =>
    if u = t ∧ t = mainOf old then disabled t old else false
  | _ :: old => disabled t old

/-- Executions in which no ignored thread is ended (by a signal handler) before it has entered its
start routine. -/
def LetsStart (s : S) : Lbl → Prop
  | .step t .unwind => ∀ st ar, .ign st ar ∉ s.th t
  | .step t (.go _ _) => (∀ f ∈ (s.th t).head?, f ≠ .px0 ∧ f ≠ .px1) ∨ ∀ st ar, .ign st ar ∉ s.th t
  | _ => True

/-- At some moment since pthread_create was entered (call `c`), creation of threads was not disabled
in the calling thread, which was main or a thread that is not ignored. -/
def enabledIn (tr : Hist) (t : Tid) (c : Nat) : Prop :=
  ∃ a b, tr = a ++ b ∧ (∃ st ar, (t, .createCall c st ar) ∈ b) ∧ disabled t b = false ∧
    (t = mainOf b ∨ ∃ w c' st ar d, madeBy b t w c' st ar (some d))

/-- The real pthread_create has returned in the call number `c`. -/
def Ev.isOutcome (c : Nat) : Ev → Bool
  | .spawn c' .. | .spawnFail c' => decide (c' = c)
  | _ => false

end Libmonitor.Proc
