import Verif.Proc.Model
/-!
# Cancellation of threads (pthread.c:468-474, 527-632, 1264-1270)

The machine of `Proc.Model` with the cancellation state of each thread beside it: whether
pthread_cancel takes effect, and the local variables `old_state` of the calls that have changed it.
Client and application may change the state of their thread, too.  A cancellation takes effect at any
frame of a thread whose cancelability is enabled: for deferred cancellation only some of the frames
are cancellation points, for asynchronous cancellation all are.
-/

namespace Libmonitor.Proc

/-- The cancellation state of a thread (kept by the C library), and the variables `old_state`
(pthread.c:445, 516, 1238) of its active calls, innermost first. -/
structure CS where
  /-- PTHREAD_CANCEL_DISABLE -/
  off : Bool := false
  /-- the thread is being ended (by pthread_exit or cancellation): it cannot be cancelled again -/
  ending : Bool := false
  saved : List Bool := []
  deriving DecidableEq, Repr

/-- real_pthread_setcancelstate(PTHREAD_CANCEL_DISABLE, &old_state): pthread.c:468, 527, 1264. -/
def CS.enter (c : CS) : CS := { c with off := true, saved := c.off :: c.saved }

/-- real_pthread_setcancelstate(old_state, NULL): pthread.c:474, 632, 1270. -/
def CS.leave (c : CS) : CS :=
  match c.saved with
  | [] => c
  | b :: r => { c with off := b, saved := r }

/-- The thread's calls are abandoned. -/
def CS.endThread (c : CS) : CS := { c with ending := true, saved := [] }

/-- What a step of a frame does to the cancellation state of its thread. -/
def csStep (c : CS) : Frame → Next → CS
  -- pthread.c:468
  | .h0, .go (.fin0 .. :: _) => c.enter
  -- pthread.c:1264
  | .sw0, .go (.fin0 .. :: _) => c.enter
  -- pthread.c:527
  | .sd0, .go (.sd1 :: _) => c.enter
  -- pthread.c:474, 1270
  | .finCb _ .handler _, .go _ | .finCb _ .sigwait _, .go _ => c.leave
  -- pthread.c:632, after 629 or 624
  | .finCb _ .winner _, .go _ | .sdMy _, .go [] => c.leave
  | _, .unwind => c.endThread
  | _, _ => c

/-- Labels: a step of the machine of `Proc.Model`, where `.unwind` is the C library's
pthread_exit; foreign code calls pthread_setcancelstate; a cancellation takes effect. -/
inductive LblC where
  | lib (l : Lbl)
  | set (t : Tid) (off : Bool)
  | cancel (t : Tid)
  deriving DecidableEq, Repr

structure SC where
  s : S := {}
  c : Tid → CS := fun _ => {}

def setC (c : Tid → CS) (t : Tid) (x : CS) : Tid → CS := fun u => if u = t then x else c u

def nextC (x : SC) : LblC → Option SC
  | .lib (.step t (.go ok v)) =>
    match x.s.th t with
    | [] => none
    | f :: _ =>
      match next x.s (.step t (.go ok v)), fstep x.s.g t ok v f with
      | some s', some (_, nx, _) => some { s := s', c := setC x.c t (csStep (x.c t) f nx) }
      | _, _ => none
  | .lib (.step t .unwind) =>
    (next x.s (.step t .unwind)).map (fun s' => { s := s', c := setC x.c t (x.c t).endThread })
  | .lib l => (next x.s l).map (fun s' => { s := s', c := x.c })
  | .set t b =>
    match x.s.th t with
    | f :: _ =>
      if f.foreign && !x.s.g.dead then some { x with c := setC x.c t { x.c t with off := b } } else none
    | [] => none
  | .cancel t =>
    if x.s.th t ≠ [] ∧ (x.c t).off = false ∧ (x.c t).ending = false ∧ x.s.g.dead = false then
      some { s := { x.s with th := setTh x.s.th t (unwound (x.s.th t)) },
             c := setC x.c t (x.c t).endThread }
    else none

/-- Reachable states, for executions whose labels satisfy `A`. -/
inductive ReachC (A : SC → LblC → Prop) : SC → Prop
  | init : ReachC A {}
  | next {x x' : SC} {l : LblC} : ReachC A x → A x l → nextC x l = some x' → ReachC A x'

end Libmonitor.Proc
