import Verif.Proc.Model
/-!
# The library without its thread module

libmonitor can be linked statically without pthread.c (main.c:666-674).  The weak definitions of
main.c then take the place of that file's functions, and pthread_create of the C library is not
overridden: threads are made behind the library's back.
-/

namespace Libmonitor.Proc

/-- One step of the top frame with the weak definitions.
* monitor_reset_thread_list does nothing (main.c:762-767), in main.c:268 and main.c:472;
* monitor_get_tn returns main's record (main.c:756-760), in main.c:303;
* monitor_thread_shootdown does nothing (main.c:778-783), in main.c:318;
* monitor_is_threaded and monitor_get_thread_num return 0 (main.c:674-678, 686-690),
  monitor_get_user_data main's data (main.c:680-684).

The other frames are those of main.c, fork.c and signal.c.  Left out: the weak
monitor_real_dlopen, monitor_real_dlclose, monitor_sigaction, monitor_real_pthread_sigmask (they
report failure to the client), the stack bottom and start-function queries. -/
def fstepW (g : G) (t : Tid) (ok : Bool) (v : Nat) : Frame → Option Res
  | .bpReset d =>
    cont ((g.upd .main (fun m => { m with data := d })).emit t (.childReset d)) [.bpFlags d]
  | .rfReset => cont (g.emit t (.realReset g.main.data)) []
  | .ep0 how => cont g [.ep1 how (some .main)]
  | .sd0 => cont g []
  | .qNum => cont (g.emit t (.gotNum 0)) []
  | .qThr => cont (g.emit t (.gotThreaded false)) []
  | .qData => cont (g.emit t (.gotData g.main.data)) []
  | f => fstep g t ok v f

/-- Functions that are there without pthread.c.  A program that uses one of the others has
pthread.c linked in, or reaches the function of the C library. -/
def Api.inSubset : Api → Bool
  | .pthreadExit | .create .. | .broadcast _ | .sigwait | .info | .block _ | .ignore _ => false
  | _ => true

/-- One step of thread `t`; compare `step`. -/
def stepW (s : S) (t : Tid) (i : Inp) : Option S :=
  if s.g.dead then none
  else
    match s.th t with
    | [] => none
    | f :: rest =>
      match i with
      | .go ok v => (fstepW s.g t ok v f).map (applyRes s t rest)
      | .call a =>
        if f.foreign && a.inSubset then
          some { s with th := setTh s.th t (a.frames ++ f :: rest) }
        else none
      | .unwind =>
        if f.foreign then some { s with th := setTh s.th t (unwound (f :: rest)) } else none
      | .deliver => none
      | .interrupt => some { s with th := setTh s.th t (.app :: f :: rest) }

/-- Labels: those of the full library, and: the C library makes a thread. -/
inductive LblW where
  | lib (l : Lbl)
  | spawn
  deriving DecidableEq, Repr

def nextW (s : S) : LblW → Option S
  | .lib (.step t i) => stepW s t i
  | .lib (.fork t) => child s t
  | .spawn =>
    if s.g.dead then none
    else some { g := { s.g with nextTid := s.g.nextTid + 1 },
                th := setTh s.th s.g.nextTid [.ignApp] }

/-- Reachable process states, for executions whose labels satisfy `A`. -/
inductive ReachW (A : LblW → Prop) : S → Prop
  | init : ReachW A {}
  | next {s s' : S} {l : LblW} : ReachW A s → A l → nextW s l = some s' → ReachW A s'

/-- Running a schedule. -/
def runW : S → List LblW → Option S
  | s, [] => some s
  | s, l :: ls => (nextW s l).bind (fun s' => runW s' ls)

end Libmonitor.Proc
