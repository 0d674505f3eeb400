/-!
# pthread.c: the scan loop of monitor_thread_shootdown

The loop is a function of what it reads: the flags of the listed threads at each scan, and the
clock.  Nothing is assumed about these readings here; the theorems say which
assumptions they need.
-/

namespace Libmonitor.Shoot

/-- What one visit of a node reads (pthread.c:583-600): is it the caller's own node,
`tn_appl_started`, `tn_fini_started`, `tn_fini_done`.  The three flags are read one
after the other; these are the values as read. -/
structure Flags where
  self : Bool := false
  appl : Bool
  started : Bool
  done : Bool
  deriving DecidableEq, Repr

/-- gettimeofday (pthread.c:572, 607). -/
structure Time where
  sec : Int
  usec : Nat
  deriving DecidableEq, Repr

/-- The readings of one iteration: the list as walked, and the clock after the walk. -/
structure Obs where
  thr : List Flags
  now : Time
  deriving DecidableEq, Repr

/-- `num_started`, `num_unstarted`, `num_finished`, `num_unfinished` after a walk
(pthread.c:575-601); `kills` are the positions that were sent the shootdown signal. -/
structure Count where
  started : Nat := 0
  unstarted : Nat := 0
  finished : Nat := 0
  unfinished : Nat := 0
  kills : List Nat := []
  deriving DecidableEq, Repr

/-- The body of the inner loop, pthread.c:583-601, at position `i`. -/
def visit (c : Count) (i : Nat) (f : Flags) : Count :=
  if f.self then c
  else if f.appl then
    let c := if f.started then { c with started := c.started + 1 }
      else { c with unstarted := c.unstarted + 1, kills := c.kills ++ [i] }
    if f.done then { c with finished := c.finished + 1 }
    else { c with unfinished := c.unfinished + 1 }
  else c

/-- The inner loop, pthread.c:579-602, from position `i`. -/
def scanFrom (i : Nat) : List Flags → Count → Count
  | [], c => c
  | f :: l, c => scanFrom (i + 1) l (visit c i f)

def scan (l : List Flags) : Count := scanFrom 0 l {}

/-- `last` and `last_started` (pthread.c:572-573). -/
structure Loc where
  last : Time
  lastStarted : Nat := 0
  deriving DecidableEq, Repr

/-- Outcome of one iteration. -/
inductive Iter where
  | finished
  | gaveUp
  | again (s : Loc)
  deriving DecidableEq, Repr

/-- MONITOR_SHOOTDOWN_TIMEOUT (pthread.c:87). -/
def timeout : Int := 10

/-- One iteration of the outer loop, pthread.c:574-619. -/
def iter (s : Loc) (o : Obs) : Iter :=
  let c := scan o.thr
  if c.unfinished = 0 then .finished
  else if c.started > s.lastStarted then .again { last := o.now, lastStarted := c.started }
  else if o.now.sec > s.last.sec + timeout ∧ c.unstarted > 0 then .gaveUp
  else .again s

/-- Where the loop is before iteration `k`. -/
inductive Status where
  | running (s : Loc)
  | finished (k : Nat)
  | gaveUp (k : Nat)
  deriving DecidableEq, Repr

/-- The loop after `k` iterations, pthread.c:571-619. -/
def status (t0 : Time) (obs : Nat → Obs) : Nat → Status
  | 0 => .running { last := t0 }
  | k + 1 =>
    match status t0 obs k with
    | .running s =>
      match iter s (obs k) with
      | .finished => .finished k
      | .gaveUp => .gaveUp k
      | .again s => .running s
    | st => st

end Libmonitor.Shoot
